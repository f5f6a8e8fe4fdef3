import Verif.Drxn.Rep
import Verif.Drxn.DrxnProps
import Verif.Drxn.SigProps

/-!
# C211: odds for repetition
-/

set_option linter.unusedSectionVars false

namespace Verif.Drxn

open Real

/-! ### Specification -/

/-- All the ways to split a list into groups: the first item is alone or joins one of the groups of the others. -/
def splits {α : Type} : List α → List (List (List α))
  | [] => [[]]
  | a :: l => (splits l).flatMap fun p => ([a] :: p) :: (List.range p.length).map fun k => p.modify k (a :: ·)

/-- Those whose groups have the sizes given, in any order. -/
def splitsOf {α : Type} (sizes : List ℕ) (l : List α) : List (List (List α)) :=
  (splits l).filter fun p => (p.map List.length).isPerm sizes

/-- The odds for groups of the sizes given, each from one source, against as many sources as bursts: the average over the ways to split the bursts of the
product of the Bayes factors of the groups. -/
noncomputable def odds (sizes : List ℕ) (l : List (ℝ × V3)) : ℝ :=
  ((splitsOf sizes l).map fun p => (p.map bayes).prod).sum / (splitsOf sizes l).length

/-- `w` is `t` but for a factor of at most `exp E`. -/
def Within (E w t : ℝ) : Prop := exp (-E) * t ≤ w ∧ w ≤ exp E * t

/-- Groups of two or more of the bursts have a factor that is computed with an error of at most `E` (in the logarithm), according to C129. -/
def Good (E : ℝ) (l : List FDir) : Prop :=
  (∀ d ∈ l, Built d ∧ 7 / 20 ≤ d.kappa) ∧ ∀ s : List FDir, s.Sublist l → 2 ≤ s.length →
    ∃ R, R ^ 2 = dot3 (fun i => (s.map fun d => d.kappa * d.uvec i).sum) (fun i => (s.map fun d => d.kappa * d.uvec i).sum) ∧ 7 / 20 ≤ R ∧
      lsErr R + (s.map fun d => lsErr d.kappa).sum ≤ E

/-! ### Lemmas -/

theorem minusLs_eq (l : List FDir) (h : ∀ d ∈ l, Built d) (x : Fl) : minusLs l x = minusLsks l x := by
  unfold minusLs minusLsks
  induction l generalizing x with
  | nil => rfl
  | cons d l ih =>
    rw [List.foldl_cons, List.foldl_cons, ← (h d List.mem_cons_self).lsk]
    exact ih (fun e he => h e (List.mem_cons_of_mem _ he)) _

theorem bayes_pos (l : List FDir) (h : ∀ d ∈ l, Built d ∧ 7 / 20 ≤ d.kappa) (h0 : 0 < norm3 (total l)) : 0 < bayes (l.map FDir.meas) := by
  rw [bayes_eq l (fun d hd => (h d hd).1.unit) (fun d hd => by have := (h d hd).2; linarith) h0]
  exact div_pos (sinhc_pos _ h0) (log_prod l (fun d hd => by have := (h d hd).2; linarith)).1

theorem group_near {E : ℝ} {l : List FDir} (hg : Good E l) (s : List FDir) (hs : s.Sublist l) (h2 : 2 ≤ s.length) :
    ∃ v, (minusLs s (lsinhc (norm3 (total s)))).exp' = .num v ∧ 0 < v ∧ 0 < bayes (s.map FDir.meas) ∧ Within E v (bayes (s.map FDir.meas)) := by
  have hm : ∀ d ∈ s, Built d ∧ 7 / 20 ≤ d.kappa := fun d hd => hg.1 d (hs.subset hd)
  obtain ⟨R, hR, h0, he⟩ := hg.2 s hs h2
  have hne : s ≠ [] := by rintro rfl; simp at h2
  obtain ⟨v, hv, hvb⟩ := C129_factor_partial s hne (fun d hd => (hm d hd).1) (fun d hd => (hm d hd).2) R hR h0
  have hn : norm3 (total s) = R := by
    have ht : (fun i => (s.map fun d => d.kappa * d.uvec i).sum) = total s := by
      funext i
      have h := dot3_total s (Pi.single i 1)
      have e : ∀ u : V3, dot3 u (Pi.single i 1) = u i := by
        intro u; unfold dot3; simp [Pi.single_apply]
      simp only [e] at h
      exact h.symm
    rw [ht] at hR
    rw [norm3_eq, ← hR, sqrt_sq (by linarith)]
  have hb := bayes_pos s hm (by rw [hn]; linarith)
  unfold multipletLbf at hv
  rw [if_neg hne] at hv
  have hv' : minusLsks s (lsinhc (norm3 (total s))) = .num v := by injection hv
  rw [minusLs_eq s (fun d hd => (hm d hd).1), hv']
  refine ⟨exp v, rfl, exp_pos v, hb, ?_⟩
  have h3 := (abs_le.1 (hvb.trans he))
  have e1 : bayes (s.map FDir.meas) = exp (log (bayes (s.map FDir.meas))) := (exp_log hb).symm
  unfold Within
  rw [e1, ← exp_add, ← exp_add, exp_le_exp, exp_le_exp]
  constructor <;> linarith [h3.1, h3.2]

theorem bayes_single (d : FDir) (h : Built d) (hk : 7 / 20 ≤ d.kappa) : bayes [d.meas] = 1 := by
  unfold bayes
  simp only [List.map_cons, List.map_nil, List.prod_cons, List.prod_nil, mul_one]
  have : sphAvg (fisher d.meas.1 d.meas.2) = sinh d.kappa / d.kappa := sphAvg_fisher d.kappa d.uvec (by linarith) h.unit
  rw [this]
  exact div_self (sinhc_pos _ (by linarith)).ne'

theorem doubletL_eq (a b : FDir) : doubletL a b = (minusLs [a, b] (lsinhc (norm3 (total [a, b])))).exp' := by
  unfold doubletL minusLs total
  simp

theorem Within.add {E a b c d : ℝ} (h : Within E a b) (k : Within E c d) : Within E (a + c) (b + d) := by
  unfold Within at *
  constructor <;> nlinarith [h.1, h.2, k.1, k.2]

theorem Within.div {E a b n : ℝ} (h : Within E a b) (hn : 0 < n) : Within E (a / n) (b / n) := by
  unfold Within at *
  constructor
  · rw [← mul_div_assoc]; exact (div_le_div_iff_of_pos_right hn).2 h.1
  · rw [← mul_div_assoc]; exact (div_le_div_iff_of_pos_right hn).2 h.2

theorem Within.mul {E a b c d : ℝ} (h : Within E a b) (k : Within E c d) (ha : 0 < a) (hb : 0 < b) (hc : 0 < c) (hd : 0 < d) : Within (2 * E) (a * c) (b * d) := by
  unfold Within at *
  have e1 : exp (-(2 * E)) = exp (-E) * exp (-E) := by rw [← exp_add]; congr 1; ring
  have e2 : exp (2 * E) = exp E * exp E := by rw [← exp_add]; congr 1; ring
  rw [e1, e2]
  have p1 := exp_pos (-E)
  have p2 := exp_pos E
  constructor
  · calc exp (-E) * exp (-E) * (b * d) = (exp (-E) * b) * (exp (-E) * d) := by ring
      _ ≤ a * c := mul_le_mul h.1 k.1 (by positivity) ha.le
  · calc a * c ≤ (exp E * b) * (exp E * d) := mul_le_mul h.2 k.2 hc.le (by positivity)
      _ = _ := by ring

/-- All ways to split three and four things. -/
theorem splits_list {α : Type} (a b c d : α) :
    splitsOf [1, 2] [a, b, c] = [[[a, b], [c]], [[b], [a, c]], [[a], [b, c]]] ∧
    splitsOf [3] [a, b, c] = [[[a, b, c]]] ∧
    splitsOf [1, 1, 2] [a, b, c, d] = [[[a, b], [c], [d]], [[b], [a, c], [d]], [[b], [c], [a, d]], [[a], [b, c], [d]], [[a], [c], [b, d]], [[a], [b], [c, d]]] ∧
    splitsOf [2, 2] [a, b, c, d] = [[[b, c], [a, d]], [[a, c], [b, d]], [[a, b], [c, d]]] ∧
    splitsOf [1, 3] [a, b, c, d] = [[[a, b, c], [d]], [[c], [a, b, d]], [[b], [a, c, d]], [[a], [b, c, d]]] ∧
    splitsOf [4] [a, b, c, d] = [[[a, b, c, d]]] := ⟨rfl, rfl, rfl, rfl, rfl, rfl⟩

/-- The splits counted are all of them: four things can be split in 15 ways, three in five. -/
theorem splits_count {α : Type} (a b c d : α) : (splits [a, b, c]).length = 5 ∧ (splits [a, b, c, d]).length = 15 := ⟨rfl, rfl⟩

theorem odds_three (a b c : FDir) (h : ∀ d ∈ [a, b, c], Built d ∧ 7 / 20 ≤ d.kappa) :
    odds [1, 2] ([a, b, c].map FDir.meas) =
      (bayes ([a, b].map FDir.meas) + bayes ([a, c].map FDir.meas) + bayes ([b, c].map FDir.meas)) / 3 ∧
    odds [3] ([a, b, c].map FDir.meas) = bayes ([a, b, c].map FDir.meas) := by
  obtain ⟨e, e', -⟩ := splits_list a.meas b.meas c.meas c.meas
  have h1 := bayes_single a (h a (by simp)).1 (h a (by simp)).2
  have h2 := bayes_single b (h b (by simp)).1 (h b (by simp)).2
  have h3 := bayes_single c (h c (by simp)).1 (h c (by simp)).2
  unfold odds
  simp only [List.map_cons, List.map_nil, e, e', List.prod_cons, List.prod_nil, List.sum_cons, List.sum_nil, List.length_cons, List.length_nil, h1, h2, h3]
  push_cast
  constructor <;> ring

theorem odds_four (a b c d : FDir) (h : ∀ x ∈ [a, b, c, d], Built x ∧ 7 / 20 ≤ x.kappa) :
    let B := fun l : List FDir => bayes (l.map FDir.meas)
    odds [1, 1, 2] ([a, b, c, d].map FDir.meas) = (B [a, b] + B [a, c] + B [a, d] + B [b, c] + B [b, d] + B [c, d]) / 6 ∧
    odds [2, 2] ([a, b, c, d].map FDir.meas) = (B [a, b] * B [c, d] + B [a, c] * B [b, d] + B [a, d] * B [b, c]) / 3 ∧
    odds [1, 3] ([a, b, c, d].map FDir.meas) = (B [b, c, d] + B [a, c, d] + B [a, b, d] + B [a, b, c]) / 4 ∧
    odds [4] ([a, b, c, d].map FDir.meas) = B [a, b, c, d] := by
  obtain ⟨-, -, e1, e2, e3, e4⟩ := splits_list a.meas b.meas c.meas d.meas
  have h1 := bayes_single a (h a (by simp)).1 (h a (by simp)).2
  have h2 := bayes_single b (h b (by simp)).1 (h b (by simp)).2
  have h3 := bayes_single c (h c (by simp)).1 (h c (by simp)).2
  have h4 := bayes_single d (h d (by simp)).1 (h d (by simp)).2
  unfold odds
  simp only [List.map_cons, List.map_nil, e1, e2, e3, e4, List.prod_cons, List.prod_nil, List.sum_cons, List.sum_nil, List.length_cons, List.length_nil, h1, h2, h3, h4]
  push_cast
  refine ⟨?_, ?_, ?_, ?_⟩ <;> ring

theorem doublets3 (b : ℕ → FDir) (mem : ℕ → ℕ → Fl) :
    doublets b 3 mem 1 1 = mem 1 1 ∧ doublets b 3 mem 1 2 = doubletL (b 1) (b 2) ∧ doublets b 3 mem 1 3 = doubletL (b 1) (b 3) ∧
    doublets b 3 mem 2 2 = mem 2 2 ∧ doublets b 3 mem 2 3 = doubletL (b 2) (b 3) := by
  have e : pairs 3 = [(1, 2), (1, 3), (2, 3)] := rfl
  unfold doublets
  rw [e]
  simp

theorem doublets4 (b : ℕ → FDir) (mem : ℕ → ℕ → Fl) :
    (doublets b 4 mem 1 1 = mem 1 1 ∧ doublets b 4 mem 2 2 = mem 2 2 ∧ doublets b 4 mem 3 3 = mem 3 3) ∧
    doublets b 4 mem 1 2 = doubletL (b 1) (b 2) ∧ doublets b 4 mem 1 3 = doubletL (b 1) (b 3) ∧
    doublets b 4 mem 1 4 = doubletL (b 1) (b 4) ∧ doublets b 4 mem 2 3 = doubletL (b 2) (b 3) ∧ doublets b 4 mem 2 4 = doubletL (b 2) (b 4) ∧
    doublets b 4 mem 3 4 = doubletL (b 3) (b 4) := by
  have e : pairs 4 = [(1, 2), (1, 3), (1, 4), (2, 3), (2, 4), (3, 4)] := rfl
  unfold doublets
  rw [e]
  simp

theorem triplets4 (b : ℕ → FDir) (mem : ℕ → ℕ → ℕ → Fl) :
    tripletsT b 4 mem 1 2 3 = tripletL (b 1) (b 2) (b 3) ∧ tripletsT b 4 mem 1 2 4 = tripletL (b 1) (b 2) (b 4) ∧
    tripletsT b 4 mem 1 3 4 = tripletL (b 1) (b 3) (b 4) ∧ tripletsT b 4 mem 2 3 4 = tripletL (b 2) (b 3) (b 4) := by
  have e : triples 4 = [(1, 2, 3), (1, 2, 4), (1, 3, 4), (2, 3, 4)] := rfl
  unfold tripletsT
  rw [e]
  simp

/-- Sublists of four. -/
theorem sub_four {α : Type} (a b c d : α) :
    [a, b].Sublist [a, b, c, d] ∧ [a, c].Sublist [a, b, c, d] ∧ [a, d].Sublist [a, b, c, d] ∧ [b, c].Sublist [a, b, c, d] ∧ [b, d].Sublist [a, b, c, d] ∧
    [c, d].Sublist [a, b, c, d] ∧ [a, b, c].Sublist [a, b, c, d] ∧ [a, b, d].Sublist [a, b, c, d] ∧ [a, c, d].Sublist [a, b, c, d] ∧
    [b, c, d].Sublist [a, b, c, d] := by
  refine ⟨?_, ?_, ?_, ?_, ?_, ?_, ?_, ?_, ?_, ?_⟩ <;> simp

/-! ### C211 -/

/-- **C211** (three bursts).  The odds written for all three from one source, and for each pair, are the right ones, within the accuracy of the factors; those for two from one source
are the right ones plus a third of what the program finds in two places of memory it never assigns to.
Missing: that nothing is added (`C211_violated_memory`), and groups whose weighted directions nearly cancel (`C211_violated_opposite`). -/
theorem C211_three_partial (a b c : FDir) (E g1 g2 : ℝ) (mem : ℕ → ℕ → Fl) (hg : Good E [a, b, c]) (h1 : mem 1 1 = .num g1) (h2 : mem 2 2 = .num g2) :
    let r := rep3 (arr [a, b, c]) mem
    let l := [a, b, c].map FDir.meas
    r.l111 = .num 1 ∧ (∃ w, r.o12 = .num (w + (g1 + g2) / 3) ∧ Within E w (odds [1, 2] l)) ∧ (∃ w, r.o3 = .num w ∧ Within E w (odds [3] l)) ∧
      (∃ w, r.p12 = .num w ∧ Within E w (bayes [a.meas, b.meas])) ∧ (∃ w, r.p13 = .num w ∧ Within E w (bayes [a.meas, c.meas])) ∧
      ∃ w, r.p23 = .num w ∧ Within E w (bayes [b.meas, c.meas]) := by
  intro r l
  obtain ⟨x1, f1, -, -, w1⟩ := group_near hg [a, b] (by simp) (by simp)
  obtain ⟨x2, f2, -, -, w2⟩ := group_near hg [a, c] (by simp) (by simp)
  obtain ⟨x3, f3, -, -, w3⟩ := group_near hg [b, c] (by simp) (by simp)
  obtain ⟨x4, f4, -, -, w4⟩ := group_near hg [a, b, c] (by simp) (by simp)
  obtain ⟨o1, o2⟩ := odds_three a b c hg.1
  obtain ⟨d1, d2, d3, d4, d5⟩ := doublets3 (arr [a, b, c]) mem
  have q1 : arr [a, b, c] 1 = a := rfl
  have q2 : arr [a, b, c] 2 = b := rfl
  have q3 : arr [a, b, c] 3 = c := rfl
  rw [← doubletL_eq] at f1 f2 f3
  rw [q1, q2, f1] at d2
  rw [q1, q3, f2] at d3
  rw [q2, q3, f3] at d5
  rw [h1] at d1
  rw [h2] at d4
  refine ⟨?_, ⟨(x1 + x2 + x3) / 3, ?_, ?_⟩, ⟨x4, f4, ?_⟩, ⟨x1, d2, w1⟩, ⟨x2, d3, w2⟩, x3, d5, w3⟩
  · show Fl.num (1 ^ 3) = _
    rw [one_pow]
  · show (sumPairs (doublets (arr [a, b, c]) 3 mem) 3).divBy 3 = _
    have e : pairs' 3 = [(1, 1), (1, 2), (1, 3), (2, 2), (2, 3)] := rfl
    unfold sumPairs
    rw [e]
    simp only [List.foldl_cons, List.foldl_nil, d1, d2, d3, d4, d5, Fl.add, Fl.divBy]
    congr 1
    ring
  · rw [o1]
    exact ((w1.add w2).add w3).div (by norm_num)
  · rw [o2]
    exact w4

/-- **C211** (four bursts).  The odds written for two pairs, for three from one source and for all four are the right ones, within the accuracy of the factors; those for
one pair are the right ones plus a sixth of what the program finds in three places of memory it never assigns to.
Missing: that nothing is added (`C211_violated_memory`), and groups whose weighted directions nearly cancel (`C211_violated_opposite`). -/
theorem C211_four_partial (a b c d : FDir) (E g1 g2 g3 : ℝ) (mem : ℕ → ℕ → Fl) (mem3 : ℕ → ℕ → ℕ → Fl) (hg : Good E [a, b, c, d])
    (h1 : mem 1 1 = .num g1) (h2 : mem 2 2 = .num g2) (h3 : mem 3 3 = .num g3) :
    let r := rep4 (arr [a, b, c, d]) mem mem3
    let l := [a, b, c, d].map FDir.meas
    r.l1111 = .num 1 ∧ (∃ w, r.o112 = .num (w + (g1 + g2 + g3) / 6) ∧ Within E w (odds [1, 1, 2] l)) ∧
      (∃ w, r.o22 = .num w ∧ Within (2 * E) w (odds [2, 2] l)) ∧ (∃ w, r.o13 = .num w ∧ Within E w (odds [1, 3] l)) ∧
      ∃ w, r.o4 = .num w ∧ Within E w (odds [4] l) := by
  intro r l
  obtain ⟨s1, s2, s3, s4, s5, s6, s7, s8, s9, s10⟩ := sub_four a b c d
  obtain ⟨x1, f1, p1, b1, w1⟩ := group_near hg [a, b] s1 (by simp)
  obtain ⟨x2, f2, p2, b2, w2⟩ := group_near hg [a, c] s2 (by simp)
  obtain ⟨x3, f3, p3, b3, w3⟩ := group_near hg [a, d] s3 (by simp)
  obtain ⟨x4, f4, p4, b4, w4⟩ := group_near hg [b, c] s4 (by simp)
  obtain ⟨x5, f5, p5, b5, w5⟩ := group_near hg [b, d] s5 (by simp)
  obtain ⟨x6, f6, p6, b6, w6⟩ := group_near hg [c, d] s6 (by simp)
  obtain ⟨y1, k1, -, -, v1⟩ := group_near hg [a, b, c] s7 (by simp)
  obtain ⟨y2, k2, -, -, v2⟩ := group_near hg [a, b, d] s8 (by simp)
  obtain ⟨y3, k3, -, -, v3⟩ := group_near hg [a, c, d] s9 (by simp)
  obtain ⟨y4, k4, -, -, v4⟩ := group_near hg [b, c, d] s10 (by simp)
  obtain ⟨z, kz, -, -, vz⟩ := group_near hg [a, b, c, d] (List.Sublist.refl _) (by simp)
  obtain ⟨o1, o2, o3, o4⟩ := odds_four a b c d hg.1
  obtain ⟨⟨m1, m2, m3⟩, d1, d2, d3, d4, d5, d6⟩ := doublets4 (arr [a, b, c, d]) mem
  obtain ⟨t1, t2, t3, t4⟩ := triplets4 (arr [a, b, c, d]) mem3
  have q1 : arr [a, b, c, d] 1 = a := rfl
  have q2 : arr [a, b, c, d] 2 = b := rfl
  have q3 : arr [a, b, c, d] 3 = c := rfl
  have q4 : arr [a, b, c, d] 4 = d := rfl
  rw [← doubletL_eq] at f1 f2 f3 f4 f5 f6
  rw [q1, q2, f1] at d1
  rw [q1, q3, f2] at d2
  rw [q1, q4, f3] at d3
  rw [q2, q3, f4] at d4
  rw [q2, q4, f5] at d5
  rw [q3, q4, f6] at d6
  rw [h1] at m1
  rw [h2] at m2
  rw [h3] at m3
  rw [q1, q2, q3, show tripletL a b c = _ from k1] at t1
  rw [q1, q2, q4, show tripletL a b d = _ from k2] at t2
  rw [q1, q3, q4, show tripletL a c d = _ from k3] at t3
  rw [q2, q3, q4, show tripletL b c d = _ from k4] at t4
  refine ⟨?_, ⟨(x1 + x2 + x3 + x4 + x5 + x6) / 6, ?_, ?_⟩, ⟨(x1 * x6 + x2 * x5 + x3 * x4) / 3, ?_, ?_⟩, ⟨(y4 + y3 + y2 + y1) / 4, ?_, ?_⟩, z, kz, ?_⟩
  · show Fl.num (1 ^ 4) = _
    rw [one_pow]
  · show (sumPairs (doublets (arr [a, b, c, d]) 4 mem) 4).divBy 6 = _
    have e : pairs' 4 = [(1, 1), (1, 2), (1, 3), (1, 4), (2, 2), (2, 3), (2, 4), (3, 3), (3, 4)] := rfl
    unfold sumPairs
    rw [e]
    simp only [List.foldl_cons, List.foldl_nil, d1, d2, d3, d4, d5, d6, m1, m2, m3, Fl.add, Fl.divBy]
    congr 1
    ring
  · rw [o1]
    exact (((((w1.add w2).add w3).add w4).add w5).add w6).div (by norm_num)
  · show Fl.divBy 3 _ = _
    simp only [d1, d2, d3, d4, d5, d6, Fl.mul, Fl.add, Fl.divBy]
  · rw [o2]
    exact (((w1.mul w6 p1 b1 p6 b6).add (w2.mul w5 p2 b2 p5 b5)).add (w3.mul w4 p3 b3 p4 b4)).div (by norm_num)
  · show Fl.divBy 4 _ = _
    simp only [t1, t2, t3, t4, Fl.add, Fl.divBy]
  · rw [o3]
    exact (((v4.add v3).add v2).add v1).div (by norm_num)
  · rw [o4]
    exact vz

/-- **C211 is violated.**  The sums over pairs include the diagonal, to which nothing is ever assigned: for any three or four bursts (whose factors are accurate), any number whatever can be written as
the odds for one pair, depending on what the memory held before the program began. -/
theorem C211_violated_memory (a b c d : FDir) (E y : ℝ) (hg : Good E [a, b, c, d]) (mem3 : ℕ → ℕ → ℕ → Fl) :
    (∃ mem, (rep3 (arr [a, b, c]) mem).o12 = .num y) ∧ ∃ mem, (rep4 (arr [a, b, c, d]) mem mem3).o112 = .num y := by
  have hg3 : Good E [a, b, c] := ⟨fun x hx => hg.1 x (by simp at hx ⊢; tauto), fun s hs => hg.2 s (hs.trans (by simp))⟩
  -- the part that does not depend on the memory
  have k3 : ∃ w, ∀ g, (rep3 (arr [a, b, c]) (fun i _ => if i = 1 then .num g else .num 0)).o12 = .num (w + g / 3) := by
    obtain ⟨x1, f1, -⟩ := group_near hg3 [a, b] (by simp) (by simp)
    obtain ⟨x2, f2, -⟩ := group_near hg3 [a, c] (by simp) (by simp)
    obtain ⟨x3, f3, -⟩ := group_near hg3 [b, c] (by simp) (by simp)
    rw [← doubletL_eq] at f1 f2 f3
    refine ⟨(x1 + x2 + x3) / 3, fun g => ?_⟩
    obtain ⟨d1, d2, d3, d4, d5⟩ := doublets3 (arr [a, b, c]) (fun i _ => if i = 1 then .num g else .num 0)
    rw [show arr [a, b, c] 1 = a from rfl, show arr [a, b, c] 2 = b from rfl, f1] at d2
    rw [show arr [a, b, c] 1 = a from rfl, show arr [a, b, c] 3 = c from rfl, f2] at d3
    rw [show arr [a, b, c] 2 = b from rfl, show arr [a, b, c] 3 = c from rfl, f3] at d5
    show (sumPairs _ 3).divBy 3 = _
    have e : pairs' 3 = [(1, 1), (1, 2), (1, 3), (2, 2), (2, 3)] := rfl
    unfold sumPairs
    rw [e]
    simp only [List.foldl_cons, List.foldl_nil, d1, d2, d3, d4, d5]
    norm_num [Fl.add, Fl.divBy]
    ring
  have k4 : ∃ w, ∀ g, (rep4 (arr [a, b, c, d]) (fun i _ => if i = 1 then .num g else .num 0) mem3).o112 = .num (w + g / 6) := by
    obtain ⟨s1, s2, s3, s4, s5, s6, -⟩ := sub_four a b c d
    obtain ⟨x1, f1, -⟩ := group_near hg [a, b] s1 (by simp)
    obtain ⟨x2, f2, -⟩ := group_near hg [a, c] s2 (by simp)
    obtain ⟨x3, f3, -⟩ := group_near hg [a, d] s3 (by simp)
    obtain ⟨x4, f4, -⟩ := group_near hg [b, c] s4 (by simp)
    obtain ⟨x5, f5, -⟩ := group_near hg [b, d] s5 (by simp)
    obtain ⟨x6, f6, -⟩ := group_near hg [c, d] s6 (by simp)
    rw [← doubletL_eq] at f1 f2 f3 f4 f5 f6
    refine ⟨(x1 + x2 + x3 + x4 + x5 + x6) / 6, fun g => ?_⟩
    obtain ⟨⟨m1, m2, m3⟩, d1, d2, d3, d4, d5, d6⟩ := doublets4 (arr [a, b, c, d]) (fun i _ => if i = 1 then .num g else .num 0)
    have q1 : arr [a, b, c, d] 1 = a := rfl
    have q2 : arr [a, b, c, d] 2 = b := rfl
    have q3 : arr [a, b, c, d] 3 = c := rfl
    have q4 : arr [a, b, c, d] 4 = d := rfl
    rw [q1, q2, f1] at d1
    rw [q1, q3, f2] at d2
    rw [q1, q4, f3] at d3
    rw [q2, q3, f4] at d4
    rw [q2, q4, f5] at d5
    rw [q3, q4, f6] at d6
    show (sumPairs _ 4).divBy 6 = _
    have e : pairs' 4 = [(1, 1), (1, 2), (1, 3), (1, 4), (2, 2), (2, 3), (2, 4), (3, 3), (3, 4)] := rfl
    unfold sumPairs
    rw [e]
    simp only [List.foldl_cons, List.foldl_nil, d1, d2, d3, d4, d5, d6, m1, m2, m3]
    norm_num [Fl.add, Fl.divBy]
    ring
  obtain ⟨w, hw⟩ := k3
  obtain ⟨v, hv⟩ := k4
  refine ⟨⟨_, (hw (3 * (y - w))).trans ?_⟩, ⟨_, (hv (6 * (y - v))).trans ?_⟩⟩ <;> congr 1 <;> ring

/-- **C211 is violated.**  For one burst or two nothing is written, although the program is for up to four. -/
theorem C211_violated_few (sys : ℝ) (l : List (ℝ × ℝ × ℝ)) (mem : ℕ → ℕ → Fl) (mem3 : ℕ → ℕ → ℕ → Fl) (h : l.length ≤ 2) (r : Report)
    (hr : rep4Main sys l mem mem3 = .ok r) : r = .nothing := by
  unfold rep4Main at hr
  rw [if_neg (by omega)] at hr
  split at hr
  · cases hr
  · rw [if_neg (by omega), if_neg (by omega)] at hr
    injection hr with hr
    exact hr.symm

/-- **C211 is violated.**  Two of three bursts in opposite directions, with concentration ten: a common source of these two is less likely than two sources by a factor
of a million, but infinite odds are written for them. -/
theorem C211_violated_opposite : ∃ a b : FDir, Built a ∧ Built b ∧ a.kappa = 10 ∧ b.kappa = 10 ∧ bayes [a.meas, b.meas] < 1 / 10 ^ 6 ∧
    ∀ (c : FDir) (mem : ℕ → ℕ → Fl), (rep3 (arr [a, b, c]) mem).p12 = .posInf := by
  obtain ⟨a, b, ha, hb, h1, h2, h3, h4, h5⟩ := C129_violated_opposite
  refine ⟨a, b, ha, hb, h1, h2, h5, fun c mem => ?_⟩
  show doublets (arr [a, b, c]) 3 mem 1 2 = _
  rw [(doublets3 _ _).2.1]
  show doubletL a b = _
  unfold doubletLbf at h4
  rw [ha.lsk, hb.lsk] at h4
  unfold doubletL
  rw [h4]
  rfl

/-- **C211** (the program).  For four bursts whose uncertainties, the systematic one included, are positive and at most five degrees, the program writes what `rep_4` makes of their
directions and concentrations; the concentrations are positive and have the meaning of C131. -/
theorem C211_reads (sys : ℝ) (x1 x2 x3 x4 : ℝ × ℝ × ℝ) (mem : ℕ → ℕ → Fl) (mem3 : ℕ → ℕ → ℕ → Fl)
    (h : ∀ x ∈ [x1, x2, x3, x4], 0 < x.2.2 ^ 2 + sys ^ 2 ∧ x.2.2 ^ 2 + sys ^ 2 ≤ 5 ^ 2) :
    ∃ a b c d : FDir, rep4Main sys [x1, x2, x3, x4] mem mem3 = .ok (.four (rep4 (arr [a, b, c, d]) mem mem3)) ∧
      ∀ p ∈ [(x1, a), (x2, b), (x3, c), (x4, d)], Built p.2 ∧ 0 < p.2.kappa ∧ p.2.uvec = dirOf (π * p.1.1 / 180) (π * p.1.2.1 / 180) ∧
        sigToKappa (π / 180 * √(p.1.2.2 ^ 2 + sys ^ 2)) = .val p.2.kappa := by
  have key : ∀ x ∈ [x1, x2, x3, x4], ∃ a, readBurst (sys * (π / 180)) x = .ok a ∧ Built a ∧ 0 < a.kappa ∧ a.uvec = dirOf (π * x.1 / 180) (π * x.2.1 / 180) ∧
      sigToKappa (π / 180 * √(x.2.2 ^ 2 + sys ^ 2)) = .val a.kappa := by
    intro x hx
    obtain ⟨p1, p2⟩ := h x hx
    have hs : √((x.2.2 * (π / 180)) ^ 2 + (sys * (π / 180)) ^ 2) = π / 180 * √(x.2.2 ^ 2 + sys ^ 2) := by
      rw [show (x.2.2 * (π / 180)) ^ 2 + (sys * (π / 180)) ^ 2 = (π / 180) ^ 2 * (x.2.2 ^ 2 + sys ^ 2) by ring, sqrt_mul (by positivity),
        sqrt_sq (by positivity)]
    have h5 : √(x.2.2 ^ 2 + sys ^ 2) ≤ 5 := by
      rw [show (5 : ℝ) = √(5 ^ 2) by rw [sqrt_sq (by norm_num)]]
      exact sqrt_le_sqrt p2
    have h0 : 0 < √(x.2.2 ^ 2 + sys ^ 2) := sqrt_pos.2 p1
    have hp := pi_lt_d2
    have hp0 := pi_pos
    obtain ⟨k, hk, hv⟩ := C131_small (π / 180 * √(x.2.2 ^ 2 + sys ^ 2)) (by positivity) (by nlinarith)
    have e : readBurst (sys * (π / 180)) x = .ok { long := some (x.1 * (π / 180)), lat := some (x.2.1 * (π / 180)), ra := none, dec := none, uvec := angVec (x.1 * (π / 180)) (x.2.1 * (π / 180)), sig := some (π / 180 * √(x.2.2 ^ 2 + sys ^ 2)), kappa := k, lsk := lsinhc k } := by
      unfold readBurst mkFDir mkDir toRad
      simp only [hs, Option.filter, hv, Option.isSome, Bool.or_self, Bool.false_eq_true, if_false]
    refine ⟨_, e, ⟨_, _, _, _, _, _, _, _, e, by simp⟩, hk, ?_, hv⟩
    unfold angVec dirOf
    rw [show x.1 * (π / 180) = π * x.1 / 180 by ring, show x.2.1 * (π / 180) = π * x.2.1 / 180 by ring]
  obtain ⟨a, e1, ha⟩ := key x1 (by simp)
  obtain ⟨b, e2, hb⟩ := key x2 (by simp)
  obtain ⟨c, e3, hc⟩ := key x3 (by simp)
  obtain ⟨d, e4, hd⟩ := key x4 (by simp)
  refine ⟨a, b, c, d, ?_, ?_⟩
  · unfold rep4Main readAll readAll readAll readAll readAll
    simp [e1, e2, e3, e4]
  · intro p hp
    simp only [List.mem_cons, List.not_mem_nil, or_false] at hp
    rcases hp with rfl | rfl | rfl | rfl
    exacts [ha, hb, hc, hd]

/-- A case: four bursts from one direction, with concentration one hundred, have factors accurate to one part in a million. -/
example : ∃ a : FDir, Built a ∧ Good (1 / 10 ^ 6) [a, a, a, a] := by
  have u1 : IsUnit3 ![1, 0, 0] := by unfold IsUnit3; rw [dot3_eq]; norm_num [lit2]
  refine ⟨_, built_of _ 100 u1 (by norm_num), ?_, ?_⟩
  · intro d hd
    simp only [List.mem_cons, List.not_mem_nil, or_false, or_self] at hd
    subst hd
    exact ⟨built_of _ 100 u1 (by norm_num), by norm_num⟩
  · intro s hs h2
    obtain ⟨n, hn, rfl⟩ : ∃ n, n ≤ 4 ∧ s = List.replicate n ({ long := none, lat := none, ra := none, dec := none, uvec := ![1, 0, 0], sig := none, kappa := 100, lsk := lsinhc 100 } : FDir) := by
      refine ⟨s.length, hs.length_le, List.eq_replicate_of_mem fun d hd => ?_⟩
      have := hs.subset hd
      simpa using this
    rw [List.length_replicate] at h2
    have hn0 : (2 : ℝ) ≤ n := by exact_mod_cast h2
    have hn4 : (n : ℝ) ≤ 4 := by exact_mod_cast hn
    have he : exp (-40 : ℝ) ≤ 1 / 10 ^ 9 := by
      have h3 : (2 : ℝ) ^ 40 ≤ exp 1 ^ 40 := pow_le_pow_left₀ (by norm_num) (exp_one_gt_d9.le.trans' (by norm_num)) 40
      rw [← exp_nat_mul] at h3
      rw [exp_neg, inv_eq_one_div]
      refine one_div_le_one_div_of_le (by norm_num) (le_trans (by norm_num) (h3.trans (exp_le_exp.2 (by norm_num))))
    refine ⟨100 * n, ?_, by linarith, ?_⟩
    · rw [dot3_eq]
      simp only [List.map_replicate, List.sum_replicate, nsmul_eq_mul]
      norm_num [lit2]
      ring
    · have e1 : lsErr (100 * n) = 3 / 10 ^ 9 + 2 * exp (-40) := by unfold lsErr; rw [if_neg (by linarith)]
      have e2 : lsErr 100 = 3 / 10 ^ 9 + 2 * exp (-40) := by unfold lsErr; rw [if_neg (by norm_num)]
      simp only [List.map_replicate, List.sum_replicate, nsmul_eq_mul, e1, e2]
      have := exp_pos (-40 : ℝ)
      nlinarith

end Verif.Drxn
