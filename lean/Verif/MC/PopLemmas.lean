import Verif.MC.Population
import Verif.MC.TablesProps
import Mathlib.Data.List.Nodup

/-! # Lemmas on `Population`: what the caches hold, and what a call gives in terms of the items and weights alone -/

set_option linter.unusedSectionVars false
set_option linter.unusedSimpArgs false

namespace Verif.MC

variable {K : Type*} [Field K] [LinearOrder K] [IsStrictOrderedRing K] [FloorRing K] {α : Type*}

/-- The sorted weights, their running sums, their total and the largest of them. -/
structure Setup (K : Type*) where
  sorted : List K
  cum : List K
  tot : K
  big : K

/-- They are made from the weights and the sorting order. -/
def setup (w : List K) (ord : List ℕ) : Option (Setup K) :=
  match pickAll w ord.reverse with
  | none => none
  | some sorted =>
    match (cumFrom (· + ·) 0 sorted).getLast?, sorted.head? with
    | some tot, some big => some ⟨sorted, cumFrom (· + ·) 0 sorted, tot, big⟩
    | _, _ => none

/-- The ratios for a sample size. -/
def Setup.ratios (S : Setup K) (n : ℤ) : List (Ext K) := S.sorted.map (ratio n S.tot)

/-- The structure `Sampford` for a sample size. -/
def Setup.pf (S : Setup K) (len : ℕ) (ord : List ℕ) (n : ℤ) : Sampford K :=
  ⟨len, S.cum, ord.reverse, n, some (S.ratios n, cumFrom Ext.add (.fin 0) (S.ratios n))⟩

/-- Sample sizes that are not refused. -/
def Setup.ok (S : Setup K) (len : ℕ) (n : ℤ) : Prop := ¬ n > len ∧ ¬ n * (S.big / S.tot) > 1 ∧ ¬ n ≥ S.sorted.length

/-- What the caches hold. -/
structure Inv (items : List α) (weights : Option (List K)) (ord : List ℕ) (rmax : ℕ) (p : Pop α K) : Prop where
  hitems : p.items = items
  hweights : p.weights = weights
  hord : p.ord = ord
  hrmax : p.rmax = rmax
  fresh : p.didInit = false → p.sampler = none ∧ p.didSampford = false
  init : p.didInit = true → ∃ w o, weights = some w ∧ p.sampler = some o ∧ initSampler w = some o.main
  clean : p.didSampford = false → p.didTables = false
  samp : p.didSampford = true → ∃ w S o r, weights = some w ∧ p.didInit = true ∧ setup w ord = some S ∧ p.sampler = some o ∧
    p.sortIndices = ord.reverse ∧ p.sortWts = S.sorted ∧ p.totWt = S.tot ∧ p.maxWt = S.big / S.tot ∧
    o.pf = some ⟨w.length, S.cum, ord.reverse, p.nsamp, r⟩ ∧
    (p.nsamp = 0 ∧ r = none ∨ r = some (S.ratios p.nsamp, cumFrom Ext.add (.fin 0) (S.ratios p.nsamp))) ∧
    (p.nsamp = 0 ∨ S.ok items.length p.nsamp) ∧
    (p.didTables = true → ∃ xs t, finites (S.ratios p.nsamp) = some xs ∧ initSampler xs = some t ∧ o.tab = some t)

variable {items : List α} {weights : Option (List K)} {ord : List ℕ} {rmax : ℕ} {p : Pop α K} {w : List K} {S : Setup K}

theorem mkPop_inv (h : mkPop items weights ord rmax = .ok p) : Inv items weights ord rmax p := by
  unfold mkPop at h
  split at h
  · simp only [Except.ok.injEq] at h
    subst h
    constructor <;> simp
  · split_ifs at h
    simp only [Except.ok.injEq] at h
    subst h
    constructor <;> simp

theorem ensureInit_spec (I : Inv items (some w) ord rmax p) :
    (initSampler w = none ∧ p.ensureInit w = (p, some .system)) ∨
    (∃ s, initSampler w = some s ∧ ∃ p', p.ensureInit w = (p', none) ∧ Inv items (some w) ord rmax p' ∧ p'.didInit = true ∧
      ∃ o, p'.sampler = some o ∧ o.main = s) := by
  unfold Pop.ensureInit
  cases hd : p.didInit with
  | true =>
    right
    obtain ⟨w', o, hw, ho, hi⟩ := I.init hd
    simp only [Option.some.injEq] at hw
    subst hw
    exact ⟨o.main, hi, p, rfl, I, hd, o, ho, rfl⟩
  | false =>
    obtain ⟨hs, hf⟩ := I.fresh hd
    rw [if_neg (by simp)]
    cases hi : initSampler w with
    | none => exact Or.inl ⟨rfl, rfl⟩
    | some s =>
      right
      refine ⟨s, rfl, _, rfl, ?_, rfl, _, rfl, rfl⟩
      refine ⟨I.hitems, I.hweights, I.hord, I.hrmax, by simp, fun _ => ⟨w, ⟨s, none, none⟩, rfl, rfl, hi⟩, I.clean, ?_⟩
      intro h
      dsimp only at h
      rw [hf] at h
      cases h

theorem ensureSampford_spec (I : Inv items (some w) ord rmax p) (hd : p.didInit = true) (reset : Bool) :
    (setup w ord = none ∧ p.ensureSampford w reset = (p, some .index)) ∨
    (∃ S, setup w ord = some S ∧ ∃ p', p.ensureSampford w reset = (p', none) ∧ Inv items (some w) ord rmax p' ∧ p'.didInit = true ∧
      p'.didSampford = true ∧ ∃ o o', p.sampler = some o ∧ p'.sampler = some o' ∧ o'.main = o.main) := by
  unfold Pop.ensureSampford
  obtain ⟨w', o, hw, ho, hi⟩ := I.init hd
  cases hs : p.didSampford with
  | true =>
    right
    obtain ⟨w', S, o, r, h1, h2, h3, h4, _⟩ := I.samp hs
    simp only [Option.some.injEq] at h1
    subst h1
    exact ⟨S, h3, p, rfl, I, hd, hs, o, o, h4, h4, rfl⟩
  | false =>
    rw [if_neg (by simp), ho]
    have ht := I.clean hs
    unfold setup
    rw [I.hord]
    dsimp only
    cases hp : pickAll w ord.reverse with
    | none => left; exact ⟨rfl, rfl⟩
    | some sorted =>
      dsimp only
      cases hl : (cumFrom (· + ·) 0 sorted).getLast? with
      | none => left; exact ⟨rfl, rfl⟩
      | some tot =>
        cases hh : sorted.head? with
        | none => left; exact ⟨rfl, rfl⟩
        | some big =>
          right
          dsimp only
          refine ⟨_, rfl, _, rfl, ?_, hd, rfl, o, _, rfl, rfl, rfl⟩
          refine ⟨I.hitems, I.hweights, rfl, I.hrmax, ?_, ?_, by simp, ?_⟩
          · intro h; dsimp only at h; rw [hd] at h; cases h
          · intro _
            simp only [Option.some.injEq] at hw
            exact ⟨w', { o with pf := some ⟨w.length, cumFrom (· + ·) 0 sorted, ord.reverse, 0, none⟩ }, by rw [hw], rfl, hi⟩
          · intro _
            refine ⟨w, ⟨sorted, cumFrom (· + ·) 0 sorted, tot, big⟩, { o with pf := some ⟨w.length, cumFrom (· + ·) 0 sorted, ord.reverse, 0, none⟩ },
              none, rfl, hd, ?_, rfl, rfl, rfl, rfl, rfl, rfl, Or.inl ⟨rfl, rfl⟩, Or.inl rfl, ?_⟩
            · unfold setup; rw [hp]; dsimp only; rw [hl, hh]
            · intro h
              dsimp only at h
              rw [ht] at h
              cases reset <;> simp at h

theorem setup_len (h : setup w ord = some S) : S.sorted.length = ord.length := by
  unfold setup at h
  split at h
  · cases h
  · rename_i sorted hp
    split at h
    · simp only [Option.some.injEq] at h
      subst h
      have : ∀ (idx : List ℕ) (l : List K), pickAll w idx = some l → l.length = idx.length := by
        intro idx
        induction idx with
        | nil => intro l hl; simp [pickAll] at hl; subst hl; rfl
        | cons a idx ih =>
          intro l hl
          simp only [pickAll, List.mapM_cons, Option.bind_eq_bind, Option.bind_eq_some_iff, Option.pure_def, Option.some.injEq] at hl
          obtain ⟨x, _, l', hl', rfl⟩ := hl
          simp [ih l' hl']
      have := this _ _ hp
      simpa using this
    · cases h

/-- The state of the C object that a sample size needs. -/
def Ready (S : Setup K) (len : ℕ) (ord : List ℕ) (n : ℤ) (p : Pop α K) : Prop :=
  ∃ o, p.sampler = some o ∧ o.pf = some (S.pf len ord n)

/-- The size zero is never refused. -/
theorem ok_zero (h : setup w ord = some S) (len : ℕ) : S.ok len 0 := by
  have hpos : 0 < S.sorted.length := by
    unfold setup at h
    split at h
    · cases h
    · rename_i sorted hp
      split at h
      · rename_i hh
        simp only [Option.some.injEq] at h
        subst h
        cases sorted with
        | nil => simp at hh
        | cons a l => simp
      · cases h
  refine ⟨by omega, by simp, by omega⟩

theorem ensureRatios_spec (I : Inv items (some w) ord rmax p) (hs : p.didSampford = true) (hS : setup w ord = some S) (n : ℤ) :
    (¬ S.ok items.length n ∧ ∃ p', p.ensureRatios n = (p', some .value) ∧ Inv items (some w) ord rmax p') ∨
    (S.ok items.length n ∧ ∃ p', p.ensureRatios n = (p', none) ∧ Inv items (some w) ord rmax p' ∧ p'.didSampford = true ∧ p'.nsamp = n ∧
      (n ≠ 0 → Ready S w.length ord n p')) := by
  obtain ⟨w', S', o, r, h1, h2, h3, h4, h5, h6, h7, h8, h9, h10, h11, h12⟩ := I.samp hs
  have hit := I.hitems
  obtain ⟨its, _, _, _, _, _, _, _, _, _, _, _, pn, _⟩ := p
  dsimp only at h2 h4 h5 h6 h7 h8 h9 h10 h11 h12 hs hit
  subst h4 h5 h6 h7 h8 hit
  simp only [Option.some.injEq] at h1
  subst h1
  rw [hS, Option.some.injEq] at h3
  subst h3
  unfold Pop.ensureRatios
  by_cases he : pn = n
  · right
    subst he
    rw [if_pos rfl]
    have h11 : S.ok its.length pn := by
      rcases h11 with h11 | h11
      · rw [h11]; exact ok_zero hS _
      · exact h11
    refine ⟨h11, _, rfl, I, hs, rfl, fun hn => ⟨o, rfl, ?_⟩⟩
    rcases h10 with ⟨h10, _⟩ | h10
    · exact absurd h10 hn
    · rw [h9, h10]; rfl
  · rw [if_neg he]
    by_cases g1 : n > its.length
    · left; rw [if_pos g1]; exact ⟨fun h => h.1 g1, _, rfl, I⟩
    rw [if_neg g1]
    by_cases g2 : n * (S.big / S.tot) > 1
    · left; rw [if_pos g2]; exact ⟨fun h => h.2.1 g2, _, rfl, I⟩
    rw [if_neg g2]
    dsimp only
    unfold prepratios
    by_cases g3 : n ≥ S.sorted.length
    · left
      rw [if_pos g3]
      exact ⟨fun h => h.2.2 g3, _, rfl, I⟩
    · right
      rw [if_neg g3, h9]
      dsimp only
      refine ⟨⟨g1, g2, g3⟩, _, rfl, ?_, hs, rfl, fun _ => ⟨_, rfl, rfl⟩⟩
      refine ⟨I.hitems, I.hweights, I.hord, I.hrmax, ?_, ?_, fun _ => rfl, ?_⟩
      · intro h; dsimp only at h; rw [h2] at h; cases h
      · intro _
        obtain ⟨w', o', hw, ho, hi⟩ := I.init h2
        simp only [Option.some.injEq] at ho
        subst ho
        exact ⟨w', _, hw, rfl, hi⟩
      · intro _
        exact ⟨w, S, _, _, rfl, h2, hS, rfl, rfl, rfl, rfl, rfl, rfl, Or.inr rfl, Or.inr ⟨g1, g2, g3⟩, by simp⟩

theorem inv_ntry (I : Inv items weights ord rmax p) (k : ℕ) : Inv items weights ord rmax { p with ntry := k } :=
  ⟨I.hitems, I.hweights, I.hord, I.hrmax, I.fresh, I.init, I.clean, I.samp⟩

/-- What `subset_pps` gives, in terms of the items and weights alone. -/
noncomputable def ppsSpec (items : List α) (weights : Option (List K)) (ord : List ℕ) (rmax : ℕ) (n : ℤ) (g : World) : World × Out (List α) :=
  if n = items.length then (g, .val items)
  else
    match setRng (3 + g.extra.length) g with
    | (g, some e) => (g, .err e)
    | (g, none) =>
      match weights with
      | none => (g, .err .name)
      | some w =>
        match initSampler w with
        | none => (g, .err .system)
        | some s =>
          match setup w ord with
          | none => (g, .err .index)
          | some S =>
            open Classical in
            if S.ok items.length n then
              match samplenr rmax ⟨s, some (S.pf w.length ord n), none⟩ g with
              | (g, .val (_, sidx)) =>
                match pickAll ord.reverse sidx with
                | none => (g, .err .index)
                | some idx =>
                  match pickAll items idx with
                  | none => (g, .err .index)
                  | some out => ({ g with words := g.cwords, extra := [] }, .val out)
              | (g, .err e) => (g, .err e)
              | (g, .crash) => (g, .crash)
              | (g, .short) => (g, .short)
            else (g, .err .value)

theorem samplenr_pf (rmax : ℕ) (o o' : Obj K) (h : o.pf = o'.pf) (g : World) : samplenr rmax o g = samplenr rmax o' g := by
  unfold samplenr
  rw [h]

/-- `subset_pps`, whatever the history: the caches hold what they should afterwards, and the outcome depends on the items and weights only. -/
theorem subsetPps_spec (I : Inv items weights ord rmax p) (n : ℤ) (g : World) :
    Inv items weights ord rmax (p.subsetPps n g).1 ∧ (n ≠ 0 → (p.subsetPps n g).2 = ppsSpec items weights ord rmax n g) := by
  unfold Pop.subsetPps ppsSpec
  rw [I.hitems, I.hweights]
  by_cases h0 : n = items.length
  · rw [if_pos h0, if_pos h0]; exact ⟨I, fun _ => rfl⟩
  rw [if_neg h0, if_neg h0]
  rcases setRng (3 + g.extra.length) g with ⟨g, _ | e⟩
  swap
  · exact ⟨I, fun _ => rfl⟩
  dsimp only
  cases weights with
  | none => exact ⟨I, fun _ => rfl⟩
  | some w =>
    dsimp only
    rcases ensureInit_spec I with ⟨hi, he⟩ | ⟨s, hi, p1, he, I1, hd1, o1, ho1, hm1⟩
    · rw [he, hi]; exact ⟨I, fun _ => rfl⟩
    rw [he, hi]
    dsimp only
    rcases ensureSampford_spec I1 hd1 true with ⟨hS, he⟩ | ⟨S, hS, p2, he, I2, hd2, hs2, o, o2, hoo, ho2, hm2⟩
    · rw [he, hS]; exact ⟨I1, fun _ => rfl⟩
    rw [he, hS]
    dsimp only
    rcases ensureRatios_spec I2 hs2 hS n with ⟨hk, p3, he, I3⟩ | ⟨hk, p3, he, I3, hs3, hn3, hR⟩
    · rw [he, if_neg hk]; exact ⟨I3, fun _ => rfl⟩
    rw [he, if_pos hk]
    dsimp only
    obtain ⟨w', S', o', r', q1, q2, q3, q4, q5, q6⟩ := I3.samp hs3
    have e1 := I3.hitems
    have e2 := I3.hrmax
    unfold Ready at hR
    obtain ⟨_, _, _, _, _, _, _, _, _, _, _, _, _, _⟩ := p3
    dsimp only at q4 q5 e1 e2 hR
    subst q4 q5 e1 e2
    dsimp only
    have hpf : n ≠ 0 → ∀ rm, samplenr rm o' g = samplenr rm ⟨s, some (S.pf w.length ord n), none⟩ g := by
      intro hn rm
      obtain ⟨o3, ho3, hp⟩ := hR hn
      simp only [Option.some.injEq] at ho3
      subst ho3
      exact samplenr_pf _ _ _ hp g
    refine ⟨?_, fun hn => ?_⟩
    · rcases samplenr _ o' g with ⟨g', ⟨k, sidx⟩ | e | _ | _⟩
      · dsimp only
        cases pickAll ord.reverse sidx with
        | none => exact inv_ntry I3 k
        | some idx =>
          dsimp only
          cases pickAll _ idx with
          | none => exact inv_ntry I3 k
          | some out => exact inv_ntry I3 k
      · exact I3
      · exact I3
      · exact I3
    · rw [hpf hn]
      rcases samplenr _ ⟨s, some (S.pf w.length ord n), none⟩ g with ⟨g', ⟨k, sidx⟩ | e | _ | _⟩
      · dsimp only
        cases pickAll ord.reverse sidx with
        | none => rfl
        | some idx =>
          dsimp only
          cases pickAll _ idx with
          | none => rfl
          | some out => rfl
      · rfl
      · rfl
      · rfl

/-! ## The sorted weights -/

/-- What `PyArray_ArgSort` promises: a permutation of the positions, in ascending order of the weights. -/
structure Sorts (w : List K) (ord : List ℕ) : Prop where
  perm : ord.Perm (List.range w.length)
  asc : ord.Pairwise fun i j => w[i]?.getD 0 ≤ w[j]?.getD 0

theorem pickAll_eq {β : Type*} (d : β) (xs : List β) (idx : List ℕ) (h : ∀ i ∈ idx, i < xs.length) :
    pickAll xs idx = some (idx.map fun i => xs[i]?.getD d) := by
  induction idx with
  | nil => rfl
  | cons a idx ih =>
    have ih := ih (fun i hi => h i (List.mem_cons_of_mem _ hi))
    unfold pickAll at ih ⊢
    rw [List.mapM_cons, ih, List.map_cons, List.getElem?_eq_getElem (h a (List.mem_cons_self ..))]
    rfl

theorem pickAll_some {β : Type*} (xs : List β) (idx : List ℕ) (out : List β) (h : pickAll xs idx = some out) :
    (∀ i ∈ idx, i < xs.length) ∧ ∀ d, out = idx.map fun i => xs[i]?.getD d := by
  induction idx generalizing out with
  | nil => simp [pickAll] at h; subst h; simp
  | cons a idx ih =>
    simp only [pickAll, List.mapM_cons, Option.bind_eq_bind, Option.bind_eq_some_iff, Option.pure_def, Option.some.injEq] at h
    obtain ⟨x, hx, l, hl, rfl⟩ := h
    obtain ⟨h1, h2⟩ := ih l hl
    refine ⟨?_, fun d => ?_⟩
    · intro i hi
      rcases List.mem_cons.1 hi with rfl | hi
      · exact (List.getElem?_eq_some_iff.1 hx).1
      · exact h1 i hi
    · rw [List.map_cons, hx, h2 d]
      rfl

theorem cumFrom_getLast (a : K) (l : List K) (h : l ≠ []) : (cumFrom (· + ·) a l).getLast? = some (a + l.sum) := by
  induction l generalizing a with
  | nil => exact absurd rfl h
  | cons x l ih =>
    unfold cumFrom
    cases l with
    | nil => simp [cumFrom]
    | cons y l =>
      rw [List.getLast?_cons, ih (a + x) (by simp)]
      simp [add_assoc]

theorem map_getD_range (w : List K) : (List.range w.length).map (fun i => w[i]?.getD 0) = w := by
  apply List.ext_getElem
  · simp
  · intro i h1 h2
    simp [h2]

/-- The set-up of non-empty weights: the total is their sum, the largest comes first. -/
theorem setup_eq (h : Sorts w ord) (hw : w ≠ []) :
    ∃ S, setup w ord = some S ∧ S.tot = w.sum ∧ S.sorted.Perm w ∧ (∀ x ∈ S.sorted, x ≤ S.big) ∧ S.big ∈ S.sorted ∧
      S.sorted = ord.reverse.map (fun i => w[i]?.getD 0) ∧ S.cum = cumFrom (· + ·) 0 S.sorted ∧ S.sorted.head? = some S.big := by
  have hp : pickAll w ord.reverse = some (ord.reverse.map fun i => w[i]?.getD 0) := by
    apply pickAll_eq
    intro i hi
    have := (h.perm.mem_iff).1 (List.mem_reverse.1 hi)
    simpa using this
  have hperm : (ord.reverse.map fun i => w[i]?.getD 0).Perm w := by
    have h1 := (((List.reverse_perm ord).trans h.perm).map (fun i => w[i]?.getD 0))
    rw [map_getD_range] at h1
    exact h1
  have hdesc : (ord.reverse.map fun i => w[i]?.getD 0).Pairwise (fun x y => y ≤ x) := by
    rw [List.pairwise_map, List.pairwise_reverse]
    exact h.asc
  generalize ord.reverse.map (fun i => w[i]?.getD 0) = l at hp hperm hdesc
  cases l with
  | nil => exact absurd (List.nil_perm.1 hperm) hw
  | cons a l =>
    refine ⟨⟨a :: l, cumFrom (· + ·) 0 (a :: l), w.sum, a⟩, ?_, rfl, hperm, ?_, List.mem_cons_self .., rfl, rfl, rfl⟩
    · unfold setup
      rw [hp]
      dsimp only
      rw [cumFrom_getLast _ _ (by simp), zero_add, hperm.sum_eq]
      rfl
    · intro x hx
      rcases List.mem_cons.1 hx with rfl | hx
      · exact le_refl _
      · exact (List.pairwise_cons.1 hdesc).1 x hx

theorem finites_eq (l : List (Ext K)) (xs : List K) (h : finites l = some xs) : l = xs.map .fin := by
  induction l generalizing xs with
  | nil => simp [finites] at h; subst h; rfl
  | cons a l ih =>
    cases a with
    | inf => simp [finites] at h
    | fin x =>
      simp only [finites, Option.map_eq_some_iff] at h
      obtain ⟨ys, hy, rfl⟩ := h
      rw [ih ys hy]
      rfl

theorem initSampler_pos (w : List K) (s : Sampler) (h : initSampler w = some s) : 0 < w.sum := by
  unfold initSampler at h
  by_contra h1
  rw [if_pos (by rw [wsum_eq]; exact not_lt.1 h1)] at h
  cases h

theorem initSampler_isSome (w : List K) (h : 0 < w.sum) : ∃ s, initSampler w = some s := by
  unfold initSampler
  rw [if_neg (by rw [wsum_eq]; exact not_le.2 h)]
  dsimp only
  split_ifs
  · exact ⟨_, rfl⟩
  · exact ⟨_, rfl⟩

/-- For a sample size that is not refused, no ratio is negative. -/
theorem ratio_nonneg {tot big x : K} {n : ℤ} (htot : 0 < tot) (hx : 0 ≤ x) (hxb : x ≤ big) (hn : ¬ n * (big / tot) > 1) :
    0 ≤ 1 - (n : K) * (x / tot) := by
  have h1 : x / tot ≤ big / tot := by gcongr
  have h2 : 0 ≤ x / tot := div_nonneg hx htot.le
  push Not at hn
  rcases le_or_gt 0 n with h | h
  · have : (0 : K) ≤ n := by exact_mod_cast h
    nlinarith
  · have : (n : K) ≤ 0 := by exact_mod_cast h.le
    nlinarith

theorem tables_some (h : Sorts w ord) (hw : ∀ x ∈ w, 0 ≤ x) (hpos : 0 < w.sum) (hS : setup w ord = some S) (hk : S.ok len n) :
    finites (S.ratios n) = none ∨ ∃ xs t, finites (S.ratios n) = some xs ∧ initSampler xs = some t := by
  cases hf : finites (S.ratios n) with
  | none => exact Or.inl rfl
  | some xs =>
    right
    obtain ⟨S', hS', h1, h2, h3, h4, h5, _⟩ := setup_eq h (by rintro rfl; simp at hpos)
    rw [hS, Option.some.injEq] at hS'
    subst hS'
    have hl := finites_eq _ _ hf
    have hx : ∀ y ∈ xs, 0 ≤ y := by
      intro y hy
      have : Ext.fin y ∈ S.ratios n := by rw [hl]; exact List.mem_map_of_mem hy
      unfold Setup.ratios at this
      rw [List.mem_map] at this
      obtain ⟨x, hxm, hxy⟩ := this
      unfold ratio at hxy
      split_ifs at hxy with h0
      simp only [Ext.fin.injEq] at hxy
      rw [← hxy]
      have hx0 := hw x (h2.mem_iff.1 hxm)
      exact div_nonneg (div_nonneg hx0 (by rw [h1]; exact hpos.le)) (ratio_nonneg (by rw [h1]; exact hpos) hx0 (h3 x hxm) hk.2.1)
    have hbig : 0 < S.big := by
      by_contra hb
      push Not at hb
      have : w.sum ≤ 0 := by
        rw [← h2.sum_eq]
        have := List.sum_le_card_nsmul S.sorted 0 (fun x hx => (h3 x hx).trans hb)
        simpa using this
      exact absurd hpos (not_lt.2 this)
    have hy : ∃ y ∈ xs, 0 < y := by
      have : ratio n S.tot S.big ∈ S.ratios n := List.mem_map_of_mem h4
      rw [hl, List.mem_map] at this
      obtain ⟨y, hy, hye⟩ := this
      refine ⟨y, hy, ?_⟩
      unfold ratio at hye
      split_ifs at hye with h0
      simp only [Ext.fin.injEq] at hye
      rw [hye]
      have := ratio_nonneg (n := n) (show 0 < S.tot by rw [h1]; exact hpos) hbig.le (le_refl _) hk.2.1
      exact div_pos (div_pos hbig (by rw [h1]; exact hpos)) (lt_of_le_of_ne this (Ne.symm h0))
    have hsum : 0 < xs.sum := by
      obtain ⟨y, hy, hyp⟩ := hy
      obtain ⟨i, hi, rfl⟩ := List.getElem_of_mem hy
      have := one_le_sum xs hx i
      rw [List.getElem?_eq_getElem hi, Option.getD_some] at this
      linarith
    obtain ⟨t, ht⟩ := initSampler_isSome xs hsum
    exact ⟨xs, t, rfl, ht⟩

/-! ## `subset_pps5` -/

/-- The state of the C object that a sample size needs. -/
def Ready5 (S : Setup K) (len : ℕ) (ord : List ℕ) (n : ℤ) (s : Sampler) (p : Pop α K) : Prop :=
  ∃ o xs t, p.sampler = some o ∧ o.main = s ∧ o.pf = some (S.pf len ord n) ∧ finites (S.ratios n) = some xs ∧ initSampler xs = some t ∧ o.tab = some t

theorem prep_pf (o : Obj K) (len : ℕ) (n : ℤ) (h : o.pf = some (S.pf len ord n)) :
    prepratiotables o = match finites (S.ratios n) with
      | none => none
      | some xs => match initSampler xs with
        | none => some (o, some .system)
        | some t => some ({ o with tab := some t }, none) := by
  unfold prepratiotables
  rw [h]
  rfl

/-- The two steps that make the tables. -/
def Pop.tables5 (p : Pop α K) (n : ℤ) : Option (Pop α K × Option Err) :=
  match p.ensureRatios5 n with
  | none => none
  | some (p, some e) => some (p, some e)
  | some (p, none) => p.ensureTables

theorem tables5_spec (hs0 : Sorts w ord) (hw : ∀ x ∈ w, 0 ≤ x) (I : Inv items (some w) ord rmax p) (hs : p.didSampford = true)
    (hi : initSampler w = some s) (hS : setup w ord = some S) (n : ℤ) :
    (¬ S.ok items.length n ∧ ∃ p', p.tables5 n = some (p', some .value) ∧ Inv items (some w) ord rmax p') ∨
    (S.ok items.length n ∧ p.tables5 n = none ∧ (n ≠ 0 → finites (S.ratios n) = none)) ∨
    (S.ok items.length n ∧ ∃ p', p.tables5 n = some (p', none) ∧ Inv items (some w) ord rmax p' ∧ p'.didSampford = true ∧
      (n ≠ 0 → Ready5 S w.length ord n s p')) := by
  have hpos := initSampler_pos w s hi
  obtain ⟨w', S', o, r, h1, h2, h3, h4, h5, h6, h7, h8, h9, h10, h11, h12⟩ := I.samp hs
  obtain ⟨w'', o'', k1, k2, k3⟩ := I.init h2
  have hit := I.hitems
  obtain ⟨its, _, _, _, _, _, dt, _, _, _, _, _, pn, _⟩ := p
  dsimp only at h2 h4 h5 h6 h7 h8 h9 h10 h11 h12 hs hit k2
  subst h4 h5 h6 h7 h8 hit
  simp only [Option.some.injEq] at h1 k1 k2
  subst h1 k1 k2
  rw [hi, Option.some.injEq] at k3
  rw [hS, Option.some.injEq] at h3
  subst h3
  -- the tables for the present size
  have made : ∀ (q : Pop α K) (oq : Obj K) (m : ℤ), Inv its (some w) ord rmax q → q.didSampford = true → q.nsamp = m → q.sampler = some oq →
      oq.pf = some (S.pf w.length ord m) → oq.main = s → S.ok its.length m →
      (q.ensureTables = none ∧ finites (S.ratios m) = none) ∨
      (∃ p', q.ensureTables = some (p', none) ∧ Inv its (some w) ord rmax p' ∧ p'.didSampford = true ∧ Ready5 S w.length ord m s p') := by
    intro q oq m Iq hqs hqn hqo hpf hmain hok
    unfold Pop.ensureTables
    obtain ⟨v', T', o1, r1, i1, i2, i3, i4, i5, i6, i7, i8, i9, i10, i11, i12⟩ := Iq.samp hqs
    simp only [Option.some.injEq] at i1
    subst i1
    rw [hS, Option.some.injEq] at i3
    subst i3
    rw [hqo, Option.some.injEq] at i4
    subst i4
    cases hqt : q.didTables with
    | true =>
      right
      rw [if_pos rfl]
      obtain ⟨xs, t, j1, j2, j3⟩ := i12 hqt
      rw [hqn] at j1
      exact ⟨q, rfl, Iq, hqs, oq, xs, t, hqo, hmain, hpf, j1, j2, j3⟩
    | false =>
      rw [if_neg (by simp), hqo]
      dsimp only
      rw [prep_pf oq w.length m hpf]
      rcases tables_some hs0 hw hpos hS hok with hf | ⟨xs, t, hf, ht⟩
      · left; rw [hf]; exact ⟨rfl, rfl⟩
      · right
        rw [hf]
        dsimp only
        rw [ht]
        dsimp only
        refine ⟨_, rfl, ?_, hqs, _, xs, t, rfl, hmain, hpf, hf, ht, rfl⟩
        refine ⟨Iq.hitems, Iq.hweights, Iq.hord, Iq.hrmax, ?_, ?_, ?_, ?_⟩
        · intro h; dsimp only at h; rw [i2] at h; cases h
        · intro _; exact ⟨w, _, rfl, rfl, by rw [hmain]; exact hi⟩
        · intro h; dsimp only at h; rw [hqs] at h; cases h
        · intro _
          exact ⟨w, S, _, r1, rfl, i2, hS, rfl, i5, i6, i7, i8, i9, i10, i11, fun _ => ⟨xs, t, by rw [hqn]; exact hf, ht, rfl⟩⟩
  unfold Pop.tables5 Pop.ensureRatios5
  dsimp only
  by_cases he : pn = n
  · subst he
    rw [if_pos rfl]
    dsimp only
    have hok : S.ok its.length pn := by
      rcases h11 with h11 | h11
      · rw [h11]; exact ok_zero hS _
      · exact h11
    right
    rcases h10 with ⟨h10, hr⟩ | h10
    · -- size zero, nothing computed
      subst hr
      unfold Pop.ensureTables
      dsimp only
      cases dt with
      | true =>
        right
        rw [if_pos rfl]
        exact ⟨hok, _, rfl, I, hs, fun h => absurd h10 h⟩
      | false =>
        left
        rw [if_neg (by simp)]
        unfold prepratiotables
        rw [h9]
        exact ⟨hok, rfl, fun h => absurd h10 h⟩
    · rcases made _ o pn I hs rfl rfl (by rw [h9, h10]; rfl) k3.symm hok with ⟨m1, m2⟩ | ⟨p', m1, m2, m3, m4⟩
      · left; exact ⟨hok, m1, fun _ => m2⟩
      · right; exact ⟨hok, p', m1, m2, m3, fun _ => m4⟩
  · rw [if_neg he]
    by_cases g1 : n > its.length
    · left; rw [if_pos g1]; exact ⟨fun h => h.1 g1, _, rfl, I⟩
    rw [if_neg g1]
    by_cases g2 : n * (S.big / S.tot) > 1
    · left; rw [if_pos g2]; exact ⟨fun h => h.2.1 g2, _, rfl, I⟩
    rw [if_neg g2]
    unfold prepratios
    by_cases g3 : n ≥ S.sorted.length
    · left
      rw [if_pos g3]
      exact ⟨fun h => h.2.2 g3, _, rfl, I⟩
    · right
      have hok : S.ok its.length n := ⟨g1, g2, g3⟩
      rw [if_neg g3, h9]
      dsimp only
      rw [show (Sampford.setSample (⟨w.length, S.cum, ord.reverse, pn, r⟩ : Sampford K) n (S.sorted.map (ratio n S.tot))
        (cumFrom Ext.add (.fin 0) (S.sorted.map (ratio n S.tot)))) = S.pf w.length ord n from rfl]
      rw [prep_pf (S := S) (ord := ord) { main := o.main, pf := some (S.pf w.length ord n), tab := o.tab } w.length n rfl]
      rcases tables_some hs0 hw hpos hS hok with hf | ⟨xs, t, hf, ht⟩
      · left; rw [hf]; exact ⟨hok, rfl, fun _ => rfl⟩
      · right
        rw [hf]
        dsimp only
        rw [ht]
        dsimp only
        refine ⟨hok, _, rfl, ?_, hs, fun _ => ⟨_, xs, t, rfl, k3.symm, rfl, hf, ht, rfl⟩⟩
        refine ⟨I.hitems, I.hweights, I.hord, I.hrmax, ?_, ?_, ?_, ?_⟩
        · intro h; dsimp only at h; rw [h2] at h; cases h
        · intro _; exact ⟨w, _, rfl, rfl, by rw [← k3]; exact hi⟩
        · intro h; dsimp only at h; rw [hs] at h; cases h
        · intro _
          exact ⟨w, S, _, _, rfl, h2, hS, rfl, rfl, rfl, rfl, rfl, rfl, Or.inr rfl, Or.inr hok, fun _ => ⟨xs, t, hf, ht, rfl⟩⟩

/-- What `subset_pps5` gives, in terms of the items and weights alone. -/
noncomputable def pps5Spec (fuel : ℕ) (items : List α) (weights : Option (List K)) (ord : List ℕ) (n : ℤ) (g : World) : World × Out (List α) :=
  if n = items.length then (g, .val items)
  else
    match setRng (3 + g.extra.length) g with
    | (g, some e) => (g, .err e)
    | (g, none) =>
      match weights with
      | none => (g, .err .name)
      | some w =>
        match initSampler w with
        | none => (g, .err .system)
        | some s =>
          match setup w ord with
          | none => (g, .err .index)
          | some S =>
            open Classical in
            if S.ok items.length n then
              match (finites (S.ratios n)).bind initSampler with
              | none => (g, .crash)
              | some t =>
                match samplenr5 fuel ⟨s, some (S.pf w.length ord n), some t⟩ g with
                | (g, .val (_, idx)) =>
                  match pickAll items idx with
                  | none => (g, .err .index)
                  | some out => ({ g with words := g.cwords, extra := [] }, .val out)
                | (g, .err e) => (g, .err e)
                | (g, .crash) => (g, .crash)
                | (g, .short) => (g, .short)
            else (g, .err .value)

/-- `subset_pps5`, whatever the history. -/
theorem subsetPps5_spec (fuel : ℕ) (hgood : ∀ w, weights = some w → Sorts w ord ∧ ∀ x ∈ w, 0 ≤ x) (I : Inv items weights ord rmax p) (n : ℤ) (g : World) :
    ((p.subsetPps5 fuel n g).2.2 ≠ .crash → Inv items weights ord rmax (p.subsetPps5 fuel n g).1) ∧ (n ≠ 0 → (p.subsetPps5 fuel n g).2 = pps5Spec fuel items weights ord n g) := by
  unfold Pop.subsetPps5 pps5Spec
  rw [I.hitems, I.hweights]
  by_cases h0 : n = items.length
  · rw [if_pos h0, if_pos h0]; exact ⟨fun _ => I, fun _ => rfl⟩
  rw [if_neg h0, if_neg h0]
  rcases setRng (3 + g.extra.length) g with ⟨g, _ | e⟩
  swap
  · exact ⟨fun _ => I, fun _ => rfl⟩
  dsimp only
  cases weights with
  | none => exact ⟨fun _ => I, fun _ => rfl⟩
  | some w =>
    obtain ⟨hs0, hw⟩ := hgood w rfl
    dsimp only
    rcases ensureInit_spec I with ⟨hi, he⟩ | ⟨s, hi, p1, he, I1, hd1, o1, ho1, hm1⟩
    · rw [he, hi]; exact ⟨fun _ => I, fun _ => rfl⟩
    rw [he, hi]
    dsimp only
    rcases ensureSampford_spec I1 hd1 false with ⟨hS, he⟩ | ⟨S, hS, p2, he, I2, hd2, hs2, o, o2, hoo, ho2, hm2⟩
    · rw [he, hS]; exact ⟨fun _ => I1, fun _ => rfl⟩
    rw [he, hS]
    dsimp only
    have ht := tables5_spec hs0 hw I2 hs2 hi hS n
    unfold Pop.tables5 at ht
    -- the last part, from a state with tables on
    have last : ∀ p3 : Pop α K, S.ok items.length n → Inv items (some w) ord rmax p3 → p3.didSampford = true → (n ≠ 0 → Ready5 S w.length ord n s p3) →
        let r : Pop α K × World × Out (List α) :=
          match p3.sampler with
          | none => (p3, g, .err .attribute)
          | some o =>
            match samplenr5 fuel o g with
            | (g, .val (ntry, idx)) =>
              match pickAll p3.items idx with
              | none => ({ p3 with ntry := ntry }, g, .err .index)
              | some out => ({ p3 with ntry := ntry }, { g with words := g.cwords, extra := [] }, .val out)
            | (g, .err e) => (p3, g, .err e)
            | (g, .crash) => (p3, g, .crash)
            | (g, .short) => (p3, g, .short)
        (r.2.2 ≠ .crash → Inv items (some w) ord rmax r.1) ∧ (n ≠ 0 → r.2 = 
              match (finites (S.ratios n)).bind initSampler with
              | none => (g, .crash)
              | some t =>
                match samplenr5 fuel ⟨s, some (S.pf w.length ord n), some t⟩ g with
                | (g, .val (_, idx)) =>
                  match pickAll items idx with
                  | none => (g, .err .index)
                  | some out => ({ g with words := g.cwords, extra := [] }, .val out)
                | (g, .err e) => (g, .err e)
                | (g, .crash) => (g, .crash)
                | (g, .short) => (g, .short)) := by
      intro p3 hok I3 hs3 hR
      obtain ⟨w', S', o', r', q1, q2, q3, q4, q5, q6⟩ := I3.samp hs3
      have e1 := I3.hitems
      unfold Ready5 at hR
      obtain ⟨_, _, _, _, _, _, _, _, _, _, _, _, _, _⟩ := p3
      dsimp only at q4 e1 hR
      subst q4 e1
      dsimp only
      refine ⟨fun _ => ?_, fun hn => ?_⟩
      · rcases samplenr5 fuel o' g with ⟨g', ⟨k, idx⟩ | e | _ | _⟩
        · dsimp only
          cases pickAll _ idx with
          | none => exact inv_ntry I3 k
          | some out => exact inv_ntry I3 k
        · exact I3
        · exact I3
        · exact I3
      · obtain ⟨o3, xs, t, ho3, hm, hp, hf, ht, htab⟩ := hR hn
        simp only [Option.some.injEq] at ho3
        subst ho3
        have hbind : (finites (S.ratios n)).bind initSampler = some t := by rw [hf]; exact ht
        rw [hbind]
        have ho : o' = ⟨s, some (S.pf w.length ord n), some t⟩ := by
          rw [← hm, ← hp, ← htab]
        rw [ho]
        dsimp only
        rcases samplenr5 fuel ⟨s, some (S.pf w.length ord n), some t⟩ g with ⟨g', ⟨k, idx⟩ | e | _ | _⟩
        · dsimp only
          cases pickAll _ idx with
          | none => rfl
          | some out => rfl
        · rfl
        · rfl
        · rfl
    rcases h5 : p2.ensureRatios5 n with _ | ⟨p3, _ | e⟩
    · rw [h5] at ht
      dsimp only at ht ⊢
      refine ⟨fun h => absurd rfl h, fun hn => ?_⟩
      rcases ht with ⟨hk, p', he, _⟩ | ⟨hk, _, hf⟩ | ⟨hk, p', he, _⟩
      · cases he
      · rw [if_pos hk, hf hn]; rfl
      · cases he
    · rw [h5] at ht
      dsimp only at ht ⊢
      rcases h6 : p3.ensureTables with _ | ⟨p4, _ | e⟩
      · rw [h6] at ht
        dsimp only
        refine ⟨fun h => absurd rfl h, fun hn => ?_⟩
        rcases ht with ⟨hk, p', he, _⟩ | ⟨hk, _, hf⟩ | ⟨hk, p', he, _⟩
        · cases he
        · rw [if_pos hk, hf hn]; rfl
        · cases he
      · rw [h6] at ht
        dsimp only
        rcases ht with ⟨hk, p', he, _⟩ | ⟨hk, he, hf⟩ | ⟨hk, p', he, I4, hs4, hR⟩
        · cases he
        · cases he
        · simp only [Option.some.injEq, Prod.mk.injEq, and_true] at he
          subst he
          rw [if_pos hk]
          exact last p4 hk I4 hs4 hR
      · rw [h6] at ht
        dsimp only
        rcases ht with ⟨hk, p', he, I4⟩ | ⟨hk, he, hf⟩ | ⟨hk, p', he, I4, hs4, hR⟩
        · simp only [Option.some.injEq, Prod.mk.injEq] at he
          obtain ⟨rfl, rfl⟩ := he
          rw [if_neg hk]
          exact ⟨fun _ => I4, fun _ => rfl⟩
        · cases he
        · simp at he
    · rw [h5] at ht
      dsimp only at ht ⊢
      rcases ht with ⟨hk, p', he, I4⟩ | ⟨hk, he, hf⟩ | ⟨hk, p', he, I4, hs4, hR⟩
      · simp only [Option.some.injEq, Prod.mk.injEq] at he
        obtain ⟨rfl, rfl⟩ := he
        rw [if_neg hk]
        exact ⟨fun _ => I4, fun _ => rfl⟩
      · cases he
      · simp at he

/-! ## `sample` -/

/-- What `sample` gives, in terms of the items and weights alone. -/
def sampleSpec (items : List α) (weights : Option (List K)) (n : ℤ) (g : World) : World × Out (List α) :=
  match weights with
  | none => (g, .err .notImplemented)
  | some w =>
    match initSampler w with
    | none => (g, .err .system)
    | some s =>
      if n ≤ 0 then ({ g with cwords := g.words }, .err .value)
      else
        match dranArray s n.toNat g.words with
        | none => ({ g with cwords := g.words }, .short)
        | some (idx, cw) =>
          match pickAll items idx with
          | none => ({ g with cwords := cw, words := cw }, .err .index)
          | some out => ({ g with cwords := cw, words := cw }, .val out)

/-- `sample`, whatever the history. -/
theorem sample_spec (I : Inv items weights ord rmax p) (n : ℤ) (g : World) :
    Inv items weights ord rmax (p.sample n g).1 ∧ (p.sample n g).2 = sampleSpec items weights n g := by
  unfold Pop.sample sampleSpec
  rw [I.hweights]
  cases weights with
  | none => exact ⟨I, rfl⟩
  | some w =>
    dsimp only
    rcases ensureInit_spec I with ⟨hi, he⟩ | ⟨s, hi, p1, he, I1, hd1, o1, ho1, hm1⟩
    · rw [he, hi]; exact ⟨I, rfl⟩
    rw [he, hi]
    have e3 : setRng 3 g = ({ g with cwords := g.words }, none) := rfl
    dsimp only
    rw [e3]
    dsimp only
    rw [ho1]
    dsimp only
    rw [hm1]
    by_cases h0 : n ≤ 0
    · rw [if_pos h0, if_pos h0]; exact ⟨I1, rfl⟩
    rw [if_neg h0, if_neg h0]
    rcases dranArray s n.toNat g.words with _ | ⟨idx, cw⟩
    · exact ⟨I1, rfl⟩
    · dsimp only
      rw [I1.hitems]
      cases pickAll items idx with
      | none => exact ⟨I1, rfl⟩
      | some out => exact ⟨I1, rfl⟩

end Verif.MC
