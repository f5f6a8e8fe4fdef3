import Verif.Quad.Composite
import Verif.Quad.TrigLemmas

/-!
# Changes of variable in quadrature rules
-/

set_option linter.unusedSectionVars false

namespace Verif.Quad

open Real Set

/-! ## Specification -/

/-- A rule applied to a function: the sum of weights times values at the nodes. -/
noncomputable def Q.sum (q : Q) (f : ℝ → ℝ) : ℝ := (List.zipWith (fun w x => w * f x) q.wts q.nodes).sum

/-- A rule has nodes and as many weights. -/
def Q.WF (q : Q) : Prop := q.nodes ≠ [] ∧ q.wts.length = q.nodes.length

/-- The change of variable that flattens the factor g: it moves along [l, u] in proportion to the integral of g. -/
def Flattens (g : ℝ → ℝ) (l u : ℝ) (X : ℝ → ℝ) : Prop :=
  X l = l ∧ X u = u ∧ StrictMonoOn X (Icc l u) ∧ ∀ s ∈ Icc l u, ∫ x in l..X s, g x = (s - l) / (u - l) * ∫ x in l..u, g x

/-- The rule m is the rule q with the nodes moved by the change of variable that flattens g, so that it integrates g exactly if q integrates constants exactly, and any other function as well as q integrates the transformed function. -/
structure Absorbs (q m : Q) (g : ℝ → ℝ) (X : ℝ → ℝ) : Prop where
  flattens : Flattens g q.l q.u X
  limits : m.l = q.l ∧ m.u = q.u
  nodes : m.nodes = q.nodes.map X
  wf : m.WF
  factor : q.sum (fun _ => 1) = q.u - q.l → ∀ c, m.quad (.fn fun x => c * g x) = .ok (∫ x in q.l..q.u, c * g x)
  other : ∀ f : ℝ → ℝ, ContinuousOn f (Icc q.l q.u) →
    q.sum (fun s => f (X s) * deriv X s) = ∫ s in q.l..q.u, f (X s) * deriv X s → m.quad (.fn f) = .ok (∫ x in q.l..q.u, f x)

/-! ## Lemmas -/

theorem quad_fn {q : Q} (h : q.WF) (f : ℝ → ℝ) : q.quad (.fn f) = .ok (q.sum f) := by
  unfold Q.quad sumProd Q.sum
  simp only []
  rw [if_pos (by rw [List.length_map]; exact h.2), List.zipWith_map_right]

theorem zip_map2 (X : ℝ → ℝ) (h : ℝ → ℝ → ℝ) (k : ℝ → ℝ → ℝ) : ∀ (w x : List ℝ),
    List.zipWith h (List.zipWith k w x) (x.map X) = List.zipWith (fun a b => h (k a b) (X b)) w x
  | [], _ => by simp
  | _ :: _, [] => by simp
  | a :: w, b :: x => by simp [zip_map2 X h k w x]

theorem zip_congr {h k : ℝ → ℝ → ℝ} : ∀ (w x : List ℝ), (∀ b ∈ x, ∀ a, h a b = k a b) → List.zipWith h w x = List.zipWith k w x
  | [], _, _ => by simp
  | _ :: _, [], _ => by simp
  | a :: w, b :: x, hh => by
    simp only [List.zipWith_cons_cons]
    rw [hh b (by simp) a, zip_congr w x fun b hb => hh b (by simp [hb])]

theorem zip_const (c : ℝ) : ∀ (w x : List ℝ), (List.zipWith (fun a _ => a * c) w x).sum = (List.zipWith (fun a _ => a * 1) w x).sum * c
  | [], _ => by simp
  | _ :: _, [] => by simp
  | a :: w, b :: x => by
    simp only [List.zipWith_cons_cons, List.sum_cons]
    rw [zip_const c w x]; ring

/-- A rule moved by the inverse of a primitive. -/
theorem absorbs_of {q m : Q} {g H X : ℝ → ℝ} {D : Set ℝ} {s : ℝ} (hw : q.WF) (hlu : q.l < q.u) (hn : ∀ x ∈ q.nodes, x ∈ Icc q.l q.u)
    (hD : ∀ x ∈ Icc q.l q.u, x ∈ D) (hH : ∀ x ∈ D, HasDerivAt H (g x) x) (hg : ∀ x ∈ D, 0 < g x) (hc : ContinuousOn g (Icc q.l q.u))
    (hs : s = (H q.u - H q.l) / (q.u - q.l)) (hXH : ∀ t ∈ Icc q.l q.u, H (X t) = H q.l + (t - q.l) * s)
    (hX : ∀ t ∈ Icc q.l q.u, HasDerivAt X (s / g (X t)) t) (hXl : X q.l = q.l) (hXu : X q.u = q.u) (hXD : ∀ t ∈ Icc q.l q.u, X t ∈ D)
    (hm : m = { q with nodes := q.nodes.map X, wts := List.zipWith (fun w t => w * (s / g (X t))) q.wts q.nodes }) :
    Absorbs q m g X := by
  have hint : ∀ a b, a ∈ Icc q.l q.u → b ∈ Icc q.l q.u → ∫ x in a..b, g x = H b - H a := by
    intro a b ha hb
    have hsub : uIcc a b ⊆ Icc q.l q.u := uIcc_subset_Icc ha hb
    refine intervalIntegral.integral_eq_sub_of_hasDerivAt (fun x hx => hH x (hD x (hsub hx))) ?_
    exact (hc.mono hsub).intervalIntegrable
  have hl : q.l ∈ Icc q.l q.u := ⟨le_rfl, hlu.le⟩
  have hu : q.u ∈ Icc q.l q.u := ⟨hlu.le, le_rfl⟩
  have hpos : 0 < s := by
    rw [hs]
    apply div_pos _ (by linarith)
    rw [← hint _ _ hl hu]
    apply intervalIntegral.intervalIntegral_pos_of_pos_on
    · exact (hc.mono (by rw [uIcc_of_le hlu.le])).intervalIntegrable
    · exact fun x hx => hg x (hD x ⟨hx.1.le, hx.2.le⟩)
    · exact hlu
  have hmono : StrictMonoOn X (Icc q.l q.u) := by
    refine strictMonoOn_of_deriv_pos (convex_Icc _ _) (fun t ht => (hX t ht).continuousAt.continuousWithinAt) fun t ht => ?_
    have ht' : t ∈ Icc q.l q.u := interior_subset ht
    rw [(hX t ht').deriv]
    exact div_pos hpos (hg _ (hXD t ht'))
  have hXI : ∀ t ∈ Icc q.l q.u, X t ∈ Icc q.l q.u := by
    intro t ht
    constructor
    · rw [← hXl]; exact hmono.monotoneOn hl ht ht.1
    · rw [← hXu]; exact hmono.monotoneOn ht hu ht.2
  have hwf : m.WF := by
    subst hm
    refine ⟨?_, ?_⟩
    · simpa using hw.1
    · simp [hw.2]
  have hsum : ∀ f, m.sum f = q.sum (fun t => f (X t) * (s / g (X t))) := by
    intro f
    subst hm
    unfold Q.sum
    simp only []
    rw [zip_map2]
    congr 1
    refine zip_congr _ _ fun b _ a => ?_
    ring
  refine ⟨⟨hXl, hXu, hmono, fun t ht => ?_⟩, by subst hm; exact ⟨rfl, rfl⟩, by subst hm; rfl, hwf, fun h1 c => ?_, fun f hf he => ?_⟩
  · rw [hint _ _ hl (hXI t ht), hint _ _ hl hu, hXH t ht, hs]; field_simp; ring
  · rw [quad_fn hwf, hsum]
    congr 1
    have : q.sum (fun t => c * g (X t) * (s / g (X t))) = q.sum (fun _ => c * s) := by
      unfold Q.sum
      congr 1
      refine zip_congr _ _ fun b hb a => ?_
      have := (hg _ (hXD b (hn b hb))).ne'
      field_simp
    rw [this]
    have h2 : q.sum (fun _ => c * s) = q.sum (fun _ => 1) * (c * s) := by
      unfold Q.sum; exact zip_const _ _ _
    rw [h2, h1, intervalIntegral.integral_const_mul, hint _ _ hl hu, hs]
    have : q.u - q.l ≠ 0 := by linarith
    field_simp
  · rw [quad_fn hwf, hsum]
    congr 1
    have e1 : q.sum (fun t => f (X t) * (s / g (X t))) = q.sum (fun t => f (X t) * deriv X t) := by
      unfold Q.sum
      congr 1
      refine zip_congr _ _ fun b hb a => ?_
      simp only [(hX b (hn b hb)).deriv]
    rw [e1, he]
    have hcX : ContinuousOn X (Icc q.l q.u) := fun t ht => (hX t ht).continuousAt.continuousWithinAt
    have hcg : ContinuousOn (fun t => g (X t)) (Icc q.l q.u) := hc.comp hcX fun t ht => hXI t ht
    have := intervalIntegral.integral_comp_mul_deriv' (a := q.l) (b := q.u) (f := X) (f' := fun t => s / g (X t)) (g := f)
      (fun x hx => hX x (by rwa [uIcc_of_le hlu.le] at hx))
      (by
        rw [uIcc_of_le hlu.le]
        exact continuousOn_const.div hcg fun t ht => (hg _ (hXD t ht)).ne')
      (by
        rw [uIcc_of_le hlu.le]
        refine hf.mono ?_
        rintro _ ⟨t, ht, rfl⟩
        exact hXI t ht)
    rw [hXl, hXu] at this
    rw [← this]
    refine intervalIntegral.integral_congr fun t ht => ?_
    rw [uIcc_of_le hlu.le] at ht
    simp only [Function.comp, (hX t ht).deriv]

end Verif.Quad
