import Verif.Tno.Tno
import Mathlib.Algebra.BigOperators.Group.List.Lemmas
import Mathlib.Algebra.Order.BigOperators.Group.List

/-!
# Property C164: the joint log likelihood of the surveys
-/

set_option linter.unusedSectionVars false

noncomputable section

namespace Verif.Tno

theorem plus_comm (a b : Option ℝ) : plus a b = plus b a := by
  cases a <;> cases b <;> simp [plus, add_comm]

theorem plus_assoc (a b c : Option ℝ) : plus (plus a b) c = plus a (plus b c) := by
  cases a <;> cases b <;> cases c <;> simp [plus, add_assoc]

theorem plus_zero (a : Option ℝ) : plus (some 0) a = a := by cases a <;> simp [plus]

theorem fold_from {α : Type} (f : α → Option ℝ) (l : List α) (x : Option ℝ) :
    l.foldl (fun acc s => plus acc (f s)) x = plus x (l.foldl (fun acc s => plus acc (f s)) (some 0)) := by
  induction l generalizing x with
  | nil => rw [List.foldl_nil, List.foldl_nil, plus_comm, plus_zero]
  | cons s l ih =>
      rw [List.foldl_cons, List.foldl_cons, ih, ih (plus (some 0) (f s)), plus_zero, plus_assoc]

theorem ljlike_cons (L : Lib) (sg : ℝ → ℝ) (s : Survey) (ss : List Survey) :
    ljlike L sg (s :: ss) = plus (surveyTerm L sg s) (ljlike L sg ss) := by
  rw [ljlike, List.foldl_cons, fold_from, plus_zero]; rfl

/-- C164: the surveys are independent: the joint log likelihood of two groups of surveys is the sum of those of the groups, and does not depend on the order in which the surveys were read. -/
theorem C164_independent (L : Lib) (sg : ℝ → ℝ) (s1 s2 : List Survey) :
    (∀ a b, ljlike L sg s1 = some a → ljlike L sg s2 = some b → ljlike L sg (s1 ++ s2) = some (a + b)) ∧
    (s1.Perm s2 → ljlike L sg s1 = ljlike L sg s2) := by
  constructor
  · intro a b ha hb
    rw [ljlike, List.foldl_append, fold_from]
    rw [ljlike] at ha hb
    rw [ha, hb]; rfl
  · intro h
    induction h with
    | nil => rfl
    | cons x _ ih => rw [ljlike_cons, ljlike_cons, ih]
    | swap x y l => rw [ljlike_cons, ljlike_cons, ljlike_cons, ljlike_cons, ← plus_assoc, ← plus_assoc, plus_comm (surveyTerm L sg y)]
    | trans _ _ ih1 ih2 => exact ih1.trans ih2

/-- The number of objects seen in a survey of type "list" or "number". -/
def Survey.seen (s : Survey) : ℕ :=
  match s.data with
  | .list objs => objs.length
  | .number n => n
  | .onoff _ _ => 0

theorem nExpRng_scale {Q : (ℝ → ℝ) → ℝ → ℝ → ℝ} (hQ : ∀ (c : ℝ) f a b, Q (fun x => c * f x) a b = c * Q f a b) (et sg : ℝ → ℝ) (area m1 m2 : ℝ) {c : ℝ} (hc : 0 < c) :
    nExpRng Q et (fun m => c * sg m) area m1 m2 = (nExpRng Q et sg area m1 m2).map (c * ·) := by
  have z : ∀ x y : ℝ, c * x * y = 0 ↔ x * y = 0 := fun x y => by rw [mul_assoc, mul_eq_zero, or_iff_right hc.ne']
  have p : ∀ x y : ℝ, 0 < c * x * y ↔ 0 < x * y := fun x y => by rw [mul_assoc]; exact mul_pos_iff_of_pos_left hc
  have q : ∀ x y : ℝ, c * x * y ≤ 0 ↔ x * y ≤ 0 := fun x y => by rw [← not_lt, ← not_lt, p]
  have r : ∀ x y u v : ℝ, c * x * y / (c * u * v) = x * y / (u * v) := fun x y u v => by
    rw [mul_assoc, mul_assoc, mul_div_mul_left _ _ hc.ne']
  have e1 : ∀ m1 m2, Q (fun m => et m * (c * sg m)) m1 m2 = c * Q (fun m => et m * sg m) m1 m2 := fun m1 m2 => by
    rw [← hQ]; congr 1; funext m; ring
  have e2 : ∀ b y1 y2, Q (fun y => et (Real.log y / b) * (c * sg (Real.log y / b)) / y) y1 y2 = c * Q (fun y => et (Real.log y / b) * sg (Real.log y / b) / y) y1 y2 :=
    fun b y1 y2 => by
      rw [← hQ]; congr 1; funext m; ring
  simp only [nExpRng, z, p, q, r, e1, e2]
  split_ifs <;> simp <;> ring

theorem pieces_scale {R R' : ℝ → ℝ → Option ℝ} {c : ℝ} (h : ∀ a b, R' a b = (R a b).map (c * ·)) : ∀ l, pieces R' l = (pieces R l).map (c * ·)
  | [] => by simp [pieces]
  | [a] => by simp [pieces]
  | [a, b] => by simp [pieces, h]
  | a :: b :: d :: l => by
      have e : ∀ R, pieces R (a :: b :: d :: l) = plus (R a b) (pieces R (b :: d :: l)) := fun R => by
        rw [pieces]; simp
      rw [e, e, h, pieces_scale h (b :: d :: l)]
      cases R a b <;> cases pieces R (b :: d :: l) <;> simp [plus, mul_add]

theorem nExp_scale {Q : (ℝ → ℝ) → ℝ → ℝ → ℝ} (hQ : ∀ (c : ℝ) f a b, Q (fun x => c * f x) a b = c * Q f a b) (erfcc sg : ℝ → ℝ) (area mlo mhi : ℝ) (e : Eff) {c : ℝ}
    (hc : 0 < c) : nExp Q erfcc (fun m => c * sg m) area mlo mhi e = (nExp Q erfcc sg area mlo mhi e).map (c * ·) :=
  pieces_scale (fun a b => nExpRng_scale hQ _ sg area a b hc) _

theorem olike_scale (sg : ℝ → ℝ) (rule : List (ℝ × ℝ)) (m s c : ℝ) : olike (fun m => c * sg m) rule m s = c * olike sg rule m s := by
  simp only [olike]
  split_ifs
  · rfl
  · rw [← mul_div_assoc]
    congr 1
    rw [← List.sum_map_mul_left]
    congr 1
    refine List.map_congr_left fun q _ => ?_
    ring

theorem objs_scale (sg : ℝ → ℝ) (rule : List (ℝ × ℝ)) {c : ℝ} (hc : 0 < c) (objs : List (ℝ × ℝ)) (hp : ∀ o ∈ objs, 0 < olike sg rule o.1 o.2) (x y : ℝ) :
    objs.foldl (fun acc o => acc + Real.log (olike (fun m => c * sg m) rule o.1 o.2)) (x + y)
      = objs.foldl (fun acc o => acc + Real.log (olike sg rule o.1 o.2)) x + y + objs.length * Real.log c := by
  induction objs generalizing x y with
  | nil => simp
  | cons o l ih =>
      rw [List.foldl_cons, List.foldl_cons, olike_scale, Real.log_mul hc.ne' (hp o (by simp)).ne',
        show x + y + (Real.log c + Real.log (olike sg rule o.1 o.2)) = (x + Real.log (olike sg rule o.1 o.2)) + (y + Real.log c) by ring,
        ih (fun o ho => hp o (by simp [ho]))]
      push_cast [List.length_cons]
      ring

/-- A survey for which the likelihood is defined: "list" or "number" data, a positive expected number, and objects at magnitudes where the density is positive. -/
def Survey.regular (L : Lib) (sg : ℝ → ℝ) (s : Survey) (N : ℝ) : Prop :=
  nExp L.Q L.erfcc sg s.area L.mlo L.mhi s.eff = some N ∧ 0 < N ∧
    match s.data with
    | .list objs => ∀ o ∈ objs, 0 < olike sg L.rule o.1 o.2
    | .number _ => True
    | .onoff _ _ => False

theorem term_scale {L : Lib} (hQ : ∀ (c : ℝ) f a b, L.Q (fun x => c * f x) a b = c * L.Q f a b) {sg : ℝ → ℝ} {s : Survey} {N : ℝ} (h : s.regular L sg N) :
    ∃ t, surveyTerm L sg s = some t ∧ ∀ c, 0 < c → surveyTerm L (fun m => c * sg m) s = some (t + (s.seen * Real.log c - (c - 1) * N)) := by
  obtain ⟨h1, h2, h3⟩ := h
  cases hd : s.data with
  | list objs =>
      rw [hd] at h3
      refine ⟨_, by simp only [surveyTerm, hd, h1, Option.map_some]; rfl, fun c hc => ?_⟩
      simp only [surveyTerm, hd, nExp_scale hQ _ _ _ _ _ _ hc, h1, Option.map_some, Survey.seen]
      congr 1
      rw [show -(c * N) = -N + -(c - 1) * N by ring, objs_scale sg L.rule hc objs h3]
      ring
  | number n =>
      refine ⟨_, by simp only [surveyTerm, hd, h1, Option.map_some]; rfl, fun c hc => ?_⟩
      simp only [surveyTerm, hd, nExp_scale hQ _ _ _ _ _ _ hc, h1, Option.map_some, Survey.seen]
      congr 1
      rw [Real.log_mul hc.ne' h2.ne']
      ring
  | onoff w bins => rw [hd] at h3; exact h3.elim

/-- C164: multiplying the density by `c` changes the joint log likelihood of "list" and "number" surveys by the number of objects times log c, less (c - 1) times the expected number, the change of a Poisson log likelihood. -/
theorem C164_amplitude {L : Lib} (hQ : ∀ (c : ℝ) f a b, L.Q (fun x => c * f x) a b = c * L.Q f a b) {sg : ℝ → ℝ} (ss : List (Survey × ℝ))
    (h : ∀ s ∈ ss, s.1.regular L sg s.2) :
    ∃ t, ljlike L sg (ss.map (·.1)) = some t ∧ ∀ c, 0 < c →
      ljlike L (fun m => c * sg m) (ss.map (·.1)) = some (t + ((ss.map fun s => (s.1.seen : ℝ)).sum * Real.log c - (c - 1) * (ss.map (·.2)).sum)) := by
  induction ss with
  | nil => exact ⟨0, rfl, fun c _ => by simp [ljlike]⟩
  | cons s l ih =>
      obtain ⟨t, ht, hc⟩ := ih fun s hs => h s (by simp [hs])
      obtain ⟨u, hu, hd⟩ := term_scale hQ (h s (by simp))
      refine ⟨u + t, ?_, fun c c0 => ?_⟩
      · rw [List.map_cons, ljlike_cons, hu, ht]; rfl
      · rw [List.map_cons, ljlike_cons, hd c c0, hc c c0]
        simp only [plus, List.map_cons, List.sum_cons]
        congr 1
        ring

/-- C164: where the expected number of objects is the number seen, no change of the amplitude of the density increases the likelihood. -/
theorem C164_best {L : Lib} (hQ : ∀ (c : ℝ) f a b, L.Q (fun x => c * f x) a b = c * L.Q f a b) {sg : ℝ → ℝ} (ss : List (Survey × ℝ))
    (h : ∀ s ∈ ss, s.1.regular L sg s.2) (hbal : (ss.map (·.2)).sum = (ss.map fun s => (s.1.seen : ℝ)).sum) {c : ℝ} (hc : 0 < c) :
    ∃ t u, ljlike L sg (ss.map (·.1)) = some t ∧ ljlike L (fun m => c * sg m) (ss.map (·.1)) = some u ∧ u ≤ t := by
  obtain ⟨t, ht, hs⟩ := C164_amplitude hQ ss h
  refine ⟨t, _, ht, hs c hc, ?_⟩
  rw [hbal]
  have h0 : 0 ≤ (ss.map fun s => (s.1.seen : ℝ)).sum := List.sum_nonneg (by simp only [List.mem_map]; rintro _ ⟨s, _, rfl⟩; positivity)
  have := Real.log_le_sub_one_of_pos hc
  nlinarith

/-- C164: an object without uncertainty contributes the density at its magnitude; so does every object when the quadrature has one node. -/
theorem C164_exact (sg : ℝ → ℝ) (gauher : ℕ → List (ℝ × ℝ)) (n : ℕ) (m s : ℝ) (h : n = 1 ∨ s ≤ 0) : olike sg (magRule gauher n) m s = sg m := by
  rw [olike, if_pos]
  rcases h with rfl | h
  · exact Or.inl (by simp [magRule])
  · exact Or.inr h

/-- C164: with a rule whose weights add up to the root of π, the contribution of an uncertain object is a mean of densities: it lies between two bounds of the density, and is the density when that is constant. -/
theorem C164_mean (sg : ℝ → ℝ) (rule : List (ℝ × ℝ)) (hw : ∀ q ∈ rule, 0 ≤ q.2) (hsum : (rule.map (·.2)).sum = √Real.pi) {lo hi : ℝ} (hlo : ∀ m, lo ≤ sg m)
    (hhi : ∀ m, sg m ≤ hi) (m s : ℝ) : lo ≤ olike sg rule m s ∧ olike sg rule m s ≤ hi := by
  have hpi : 0 < √Real.pi := Real.sqrt_pos.2 Real.pi_pos
  simp only [olike]
  split_ifs
  · exact ⟨hlo m, hhi m⟩
  · constructor
    · rw [le_div_iff₀ hpi, ← hsum, ← List.sum_map_mul_left]
      refine List.sum_le_sum fun q hq => ?_
      rw [mul_comm]
      exact mul_le_mul_of_nonneg_left (hlo _) (hw q hq)
    · rw [div_le_iff₀ hpi, ← hsum, ← List.sum_map_mul_left]
      refine List.sum_le_sum fun q hq => ?_
      rw [mul_comm hi]
      exact mul_le_mul_of_nonneg_left (hhi _) (hw q hq)

/-- A constant density, a trapezoid for the quadrature and a survey that saw two objects where three were expected meet the conditions of `C164_amplitude`. -/
example : (Survey.mk (.heaviside 1 3) 1 (.list [(1, 0), (2, 0)])).regular ⟨fun f a b => (b - a) * (f a + f b) / 2, fun _ => 1, [(0, 1)], fun _ _ _ => none, 0, 5⟩ (fun _ => 1) 3 := by
  refine ⟨?_, by norm_num, ?_⟩
  · simp [nExp, breaks, pieces, nExpRng, eta]
    norm_num
  · intro o ho
    simp [olike]

end Verif.Tno
