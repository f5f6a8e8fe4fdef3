import Verif.Quad.MapLemmas
import Mathlib.Analysis.SpecialFunctions.Pow.Deriv
import Mathlib.Analysis.SpecialFunctions.Trigonometric.DerivHyp

/-!
# C142, C143: rules that absorb a power law or an exponential
-/

set_option linter.unusedSectionVars false

namespace Verif.Quad

open Real Set

/-! ## Lemmas -/

theorem make_wf {a : RuleArgs} {q : Q} (h : Q.make a = .ok q) : q.WF := by
  cases a with
  | other => simp [Q.make] at h
  | two nodes wts =>
    simp only [Q.make] at h
    split at h
    · rename_i l u h1 h2
      split_ifs at h with hl
      · cases h
        refine ⟨?_, by simpa using hl⟩
        rintro rfl; simp at h1
    · cases h
  | four l u nodes wts =>
    simp only [Q.make] at h
    split at h
    · rename_i l u h1 h2
      split_ifs at h with hl
      · cases h
        refine ⟨?_, by simpa using hl⟩
        rintro rfl; simp at h1
    · cases h

/-- The change of variable for the index 1. -/
noncomputable def plX1 (l u t : ℝ) : ℝ := l * exp ((t - l) * (log (u / l) / (u - l)))

/-- The change of variable for another index; `i` is 1 minus the index. -/
noncomputable def plXi (i l u t : ℝ) : ℝ :=
  exp (log l + log (1 + i * ((t - l) * (l ^ i * ((u / l) ^ i - 1) / i / (u - l))) / l ^ i) / i)

theorem plMake_one {indx : ℝ} (hi : |indx - 1| < 0.2) {a : RuleArgs} {q : Q} (h : Q.make a = .ok q) (hl : 0 < q.l) (hlu : q.l < q.u)
    (hn : ∀ x ∈ q.nodes, x ∈ Icc q.l q.u) :
    ∃ m, plMake indx a = .ok m ∧ Absorbs q m (fun x => x ^ (-1 : ℝ)) (plX1 q.l q.u) := by
  have hu : 0 < q.u := hl.trans hlu
  have hd : q.u - q.l ≠ 0 := by linarith
  unfold plMake
  rw [h]
  simp only []
  rw [if_neg (by push Not; exact ⟨hl, hu, hd⟩), if_pos hi]
  refine ⟨_, rfl, absorbs_of (H := log) (D := Ioi 0) (s := log (q.u / q.l) / (q.u - q.l)) (make_wf h) hlu hn (fun x hx => lt_of_lt_of_le hl hx.1)
    (fun x hx => ?_) (fun x hx => ?_) ?_ ?_ (fun t ht => ?_) (fun t ht => ?_) ?_ ?_ (fun t ht => ?_) ?_⟩
  · rw [rpow_neg_one]; exact hasDerivAt_log (ne_of_gt hx)
  · exact rpow_pos_of_pos hx _
  · exact fun x hx => (continuousAt_rpow_const x _ (Or.inl (lt_of_lt_of_le hl hx.1).ne')).continuousWithinAt
  · rw [log_div hu.ne' hl.ne']
  · unfold plX1
    rw [log_mul hl.ne' (exp_pos _).ne', log_exp]
  · have e : log (q.u / q.l) / (q.u - q.l) / (plX1 q.l q.u t) ^ (-1 : ℝ) = q.l * (exp ((t - q.l) * (log (q.u / q.l) / (q.u - q.l))) * (1 * (log (q.u / q.l) / (q.u - q.l)))) := by
      rw [rpow_neg_one, div_inv_eq_mul]; unfold plX1; ring
    simp only [e]
    exact ((((hasDerivAt_id t).sub_const q.l).mul_const _).exp).const_mul q.l
  · unfold plX1; simp
  · unfold plX1
    rw [mul_div_cancel₀ _ hd, exp_log (div_pos hu hl)]
    field_simp
  · exact mul_pos hl (exp_pos _)
  · congr 1
    · rw [List.map_map]; rfl
    · rw [List.map_map]
      have : ∀ (w x : List ℝ) (s : ℝ) (X : ℝ → ℝ), List.zipWith (· * ·) (w.map fun w => w * s) (x.map X) = List.zipWith (fun a b => a * (s * X b)) w x := by
        intro w x s X
        rw [List.zipWith_map]
        congr 1; funext a b; ring
      rw [this]
      congr 1; funext a b
      rw [rpow_neg_one, div_inv_eq_mul]; rfl

theorem plMake_other {indx : ℝ} (hi : ¬|indx - 1| < 0.2) {a : RuleArgs} {q : Q} (h : Q.make a = .ok q) (hl : 0 < q.l) (hlu : q.l < q.u)
    (hn : ∀ x ∈ q.nodes, x ∈ Icc q.l q.u) :
    ∃ m, plMake indx a = .ok m ∧ Absorbs q m (fun x => x ^ (-indx)) (plXi (1 - indx) q.l q.u) := by
  have hu : 0 < q.u := hl.trans hlu
  have hd : q.u - q.l ≠ 0 := by linarith
  have hi0 : 1 - indx ≠ 0 := by
    intro h0; apply hi
    have : indx - 1 = 0 := by linarith
    rw [this]; norm_num
  set i := 1 - indx with hidef
  have hlp : 0 < q.l ^ i := rpow_pos_of_pos hl _
  have hup : 0 < q.u ^ i := rpow_pos_of_pos hu _
  set sc := q.l ^ i * ((q.u / q.l) ^ i - 1) / i / (q.u - q.l) with hsc
  have hsc' : sc = (q.u ^ i - q.l ^ i) / i / (q.u - q.l) := by
    rw [hsc, div_rpow hu.le hl.le]; field_simp
  -- the argument of the logarithm
  have harg : ∀ t, 1 + i * ((t - q.l) * sc) / q.l ^ i = ((q.u - t) * q.l ^ i + (t - q.l) * q.u ^ i) / ((q.u - q.l) * q.l ^ i) := by
    intro t; rw [hsc']; field_simp; ring
  have hpos : ∀ t ∈ Icc q.l q.u, 0 < 1 + i * ((t - q.l) * sc) / q.l ^ i := by
    intro t ht
    rw [harg]
    apply div_pos _ (mul_pos (by linarith) hlp)
    rcases eq_or_lt_of_le ht.1 with h1 | h1
    · rw [← h1]; have : 0 < (q.u - q.l) * q.l ^ i := mul_pos (by linarith) hlp
      linarith
    · have a1 : 0 ≤ (q.u - t) * q.l ^ i := mul_nonneg (by linarith [ht.2]) hlp.le
      have a2 : 0 < (t - q.l) * q.u ^ i := mul_pos (by linarith) hup
      linarith
  have hXdef : ∀ t, plXi i q.l q.u t = exp (log q.l + log (1 + i * ((t - q.l) * sc) / q.l ^ i) / i) := fun t => rfl
  have hXi : ∀ t ∈ Icc q.l q.u, (plXi i q.l q.u t) ^ i = q.l ^ i * (1 + i * ((t - q.l) * sc) / q.l ^ i) := by
    intro t ht
    rw [hXdef, ← exp_mul, add_mul, div_mul_cancel₀ _ hi0, exp_add, exp_log (hpos t ht), rpow_def_of_pos hl]
  unfold plMake
  rw [h]
  simp only []
  rw [if_neg (by push Not; exact ⟨hl, hu, hd⟩), if_neg hi, if_neg]
  swap
  · rintro ⟨y, hy, hy0⟩
    obtain ⟨t, ht, rfl⟩ := List.mem_map.1 hy
    exact absurd (hpos t (hn t ht)) (not_lt.2 hy0)
  refine ⟨_, rfl, absorbs_of (H := fun x => x ^ i / i) (D := Ioi 0) (s := sc) (make_wf h) hlu hn (fun x hx => lt_of_lt_of_le hl hx.1)
    (fun x hx => ?_) (fun x hx => ?_) ?_ ?_ (fun t ht => ?_) (fun t ht => ?_) ?_ ?_ (fun t ht => ?_) ?_⟩
  · have := (hasDerivAt_rpow_const (x := x) (p := i) (Or.inl (ne_of_gt hx))).div_const i
    have e : i * x ^ (i - 1) / i = x ^ (-indx) := by
      rw [mul_div_cancel_left₀ _ hi0]; congr 1; rw [hidef]; ring
    rwa [e] at this
  · exact rpow_pos_of_pos hx _
  · exact fun x hx => (continuousAt_rpow_const x _ (Or.inl (lt_of_lt_of_le hl hx.1).ne')).continuousWithinAt
  · rw [hsc']; ring
  · rw [hXi t ht]; field_simp
  · have hX0 : 0 < plXi i q.l q.u t := exp_pos _
    have hA := hpos t ht
    have hder : HasDerivAt (fun t => 1 + i * ((t - q.l) * sc) / q.l ^ i) (i * (1 * sc) / q.l ^ i) t :=
      (((((hasDerivAt_id t).sub_const q.l).mul_const sc).const_mul i).div_const (q.l ^ i)).const_add 1
    have hd2 := (((hder.log hA.ne').div_const i).const_add (log q.l)).exp
    have e : sc / (plXi i q.l q.u t) ^ (-indx) = exp (log q.l + log (1 + i * ((t - q.l) * sc) / q.l ^ i) / i) * (i * (1 * sc) / q.l ^ i / (1 + i * ((t - q.l) * sc) / q.l ^ i) / i) := by
      rw [← hXdef]
      have e1 : (plXi i q.l q.u t) ^ (-indx) = (plXi i q.l q.u t) ^ i / plXi i q.l q.u t := by
        rw [← rpow_sub_one hX0.ne']; congr 1; rw [hidef]; ring
      rw [e1, hXi t ht]
      set A := 1 + i * ((t - q.l) * sc) / q.l ^ i
      have hA' : A ≠ 0 := hA.ne'
      field_simp
    simp only [e]
    exact hd2
  · rw [hXdef]; simp [exp_log hl]
  · rw [hXdef]
    have : 1 + i * ((q.u - q.l) * sc) / q.l ^ i = (q.u / q.l) ^ i := by
      rw [harg, div_rpow hu.le hl.le]; field_simp; ring
    rw [this, log_rpow (div_pos hu hl), mul_div_cancel_left₀ _ hi0, log_div hu.ne' hl.ne', add_sub_cancel, exp_log hu]
  · exact exp_pos _
  · congr 1
    · rw [List.map_map, List.map_map]; rfl
    · rw [List.map_map, List.map_map]
      rw [List.zipWith_map]
      refine zip_congr _ _ fun b hb a => ?_
      simp only [Function.comp]
      have hX0 : 0 < plXi i q.l q.u b := exp_pos _
      have : exp (indx * (log q.l + log (1 + i * ((b - q.l) * sc) / q.l ^ i) / i)) = (plXi i q.l q.u b) ^ indx := by
        rw [hXdef, ← exp_mul, mul_comm]
      rw [this, rpow_neg hX0.le, div_inv_eq_mul]; ring

/-! ## C142 -/

/-- **C142 (part).** A rule with limits 0 < l < u and nodes in [l, u], moved to absorb the power law x**(-indx), is the rule after the change of variable that flattens the power law, if the index is 1 or differs from 1 by at least 0.2: it integrates multiples of the power law exactly as soon as the given rule integrates constants exactly.  For other indices it absorbs 1/x instead.  Missing: the power laws with indices near 1, see `C142_violated_near`. -/
theorem C142_power_partial (indx : ℝ) (a : RuleArgs) (q : Q) (h : Q.make a = .ok q) (hl : 0 < q.l) (hlu : q.l < q.u) (hn : ∀ x ∈ q.nodes, x ∈ Icc q.l q.u) :
    ∃ m X, plMake indx a = .ok m ∧ (indx = 1 ∨ 0.2 ≤ |indx - 1| → Absorbs q m (fun x => x ^ (-indx)) X) ∧
      (|indx - 1| < 0.2 → Absorbs q m (fun x => x ^ (-1 : ℝ)) X) := by
  by_cases hi : |indx - 1| < 0.2
  · obtain ⟨m, hm, hA⟩ := plMake_one hi h hl hlu hn
    refine ⟨m, _, hm, ?_, fun _ => hA⟩
    rintro (h1 | h1)
    · rw [h1]; exact hA
    · exact absurd hi (not_lt.2 h1)
  · obtain ⟨m, hm, hA⟩ := plMake_other hi h hl hlu hn
    exact ⟨m, _, hm, fun _ => hA, fun h1 => absurd h1 hi⟩

/-- The trapezoidal rule on [1, 2] and the index 3: the power law is integrated exactly. -/
example : ∃ m, plMake 3 (.two [1, 2] [1 / 2, 1 / 2]) = .ok m ∧ m.quad (.fn fun x => 2 * x ^ (-3 : ℝ)) = .ok (∫ x in (1 : ℝ)..2, 2 * x ^ (-3 : ℝ)) := by
  obtain ⟨m, X, hm, hA, _⟩ := C142_power_partial 3 (.two [1, 2] [1 / 2, 1 / 2]) ⟨true, 1, 2, [1, 2], [1 / 2, 1 / 2]⟩ (by simp [Q.make]) (by norm_num) (by norm_num)
    (by simp)
  exact ⟨m, hm, (hA (by right; norm_num)).factor (by simp [Q.sum]; norm_num) 2⟩

/-- The midpoint rule on [1, e] and the index 1.1: constants are integrated exactly by the rule, but the power law is not by the rule made to absorb it. -/
theorem C142_violated_near : ∃ q m, Q.make (.four 1 (exp 1) [(1 + exp 1) / 2] [exp 1 - 1]) = .ok q ∧ q.sum (fun _ => 1) = q.u - q.l ∧
    plMake 1.1 (.four 1 (exp 1) [(1 + exp 1) / 2] [exp 1 - 1]) = .ok m ∧
    m.quad (.fn fun x => x ^ (-1.1 : ℝ)) ≠ .ok (∫ x in q.l..q.u, x ^ (-1.1 : ℝ)) := by
  have he : (1 : ℝ) < exp 1 := by simp
  have hmid : (1 + exp 1) / 2 ∈ Icc 1 (exp 1) := ⟨by linarith, by linarith⟩
  set q : Q := ⟨(open Classical in decide ((1 : ℝ) = (1 + exp 1) / 2 ∧ exp 1 = (1 + exp 1) / 2)), 1, exp 1, [(1 + exp 1) / 2], [exp 1 - 1]⟩ with hqdef
  have hq : Q.make (.four 1 (exp 1) [(1 + exp 1) / 2] [exp 1 - 1]) = .ok q := by
    simp [Q.make, hqdef]
  have hi : |(1.1 : ℝ) - 1| < 0.2 := by rw [abs_lt]; norm_num
  obtain ⟨m, hm, hA⟩ := plMake_one hi hq (by simp [hqdef]) (by simpa [hqdef] using he) (by simpa [hqdef] using hmid)
  refine ⟨q, m, hq, by simp [Q.sum, hqdef], hm, ?_⟩
  unfold plMake at hm
  rw [hq] at hm
  simp only [hqdef] at hm
  rw [if_neg (by push Not; exact ⟨by norm_num, by linarith, by intro h; linarith⟩), if_pos hi] at hm
  injection hm with hm
  rw [quad_fn hA.wf, ← hm]
  intro hc
  injection hc with hc
  have hd : exp 1 - 1 ≠ 0 := by linarith
  simp only [Q.sum, List.map_cons, List.map_nil, List.zipWith_cons_cons, List.zipWith_nil_left, List.sum_cons, List.sum_nil, add_zero, div_one, log_exp, one_mul] at hc
  have e1 : ((1 + exp 1) / 2 - 1) * (1 / (exp 1 - 1)) = 1 / 2 := by field_simp; ring
  rw [e1, mul_one_div_cancel hd, one_mul, integral_rpow (by right; refine ⟨by norm_num, ?_⟩; simp only [hqdef]; rw [uIcc_of_le he.le]; simp)] at hc
  simp only [hqdef] at hc
  rw [one_rpow, ← exp_mul, ← exp_mul, ← exp_add] at hc
  have hsinh : (0.05 : ℝ) < sinh 0.05 := Real.self_lt_sinh_iff.2 (by norm_num)
  rw [sinh_eq] at hsinh
  have h1 : exp (1 * (-1.1 + 1)) = exp (-0.05) * exp (-0.05) := by rw [← exp_add]; congr 1; norm_num
  have h2 : exp (1 / 2 + 1 / 2 * (-1.1)) = exp (-0.05) := by congr 1; norm_num
  rw [h1, h2] at hc
  have h3 : exp 0.05 * exp (-0.05) = 1 := by rw [← exp_add]; norm_num
  have h4 : 0 < exp (-0.05 : ℝ) := exp_pos _
  have h5 : exp (-0.05 : ℝ) * 0.1 = 1 - exp (-0.05) * exp (-0.05) := by
    rw [eq_div_iff (by norm_num)] at hc
    linarith
  nlinarith

/-! ## C143 -/

/-- **C143.** A rule with limits l < u and nodes in [l, u], moved to absorb exp(alpha x), is the rule after the change of variable that flattens the exponential: it integrates multiples of the exponential exactly as soon as the given rule integrates constants exactly. -/
theorem C143_exponential (alpha : ℝ) (ha : alpha ≠ 0) (a : RuleArgs) (q : Q) (h : Q.make a = .ok q) (hlu : q.l < q.u) (hn : ∀ x ∈ q.nodes, x ∈ Icc q.l q.u) :
    ∃ m X, expMake alpha a = .ok m ∧ Absorbs q m (fun x => exp (alpha * x)) X := by
  have hd : q.u - q.l ≠ 0 := by linarith
  set yl := exp (alpha * q.l) / alpha with hyl
  set yu := exp (alpha * q.u) / alpha with hyu
  set sc := (yu - yl) / (q.u - q.l) with hsc
  have hbr : ∀ x, (if |yl| < |yu| then yl + (x - q.l) * sc else yu - (q.u - x) * sc) = yl + (x - q.l) * sc := by
    intro x
    split_ifs
    · rfl
    · rw [hsc]; field_simp; ring
  have hpos : ∀ t ∈ Icc q.l q.u, 0 < alpha * (yl + (t - q.l) * sc) := by
    intro t ht
    have : alpha * (yl + (t - q.l) * sc) = ((q.u - t) * exp (alpha * q.l) + (t - q.l) * exp (alpha * q.u)) / (q.u - q.l) := by
      rw [hsc, hyl, hyu]; field_simp; ring
    rw [this]
    apply div_pos _ (by linarith)
    have a0 := exp_pos (alpha * q.l)
    have a0' := exp_pos (alpha * q.u)
    rcases eq_or_lt_of_le ht.1 with h1 | h1
    · rw [← h1]; have : 0 < (q.u - q.l) * exp (alpha * q.l) := mul_pos (by linarith) a0
      linarith
    · have a1 : 0 ≤ (q.u - t) * exp (alpha * q.l) := mul_nonneg (by linarith [ht.2]) a0.le
      have a2 : 0 < (t - q.l) * exp (alpha * q.u) := mul_pos (by linarith) a0'
      linarith
  unfold expMake
  rw [h]
  simp only []
  rw [if_neg (by push Not; exact ⟨ha, hd⟩)]
  simp only [← hyl, ← hyu, ← hsc, hbr]
  rw [if_neg]
  swap
  · rintro ⟨y, hy, hy0⟩
    obtain ⟨t, ht, rfl⟩ := List.mem_map.1 hy
    exact absurd (hpos t (hn t ht)) (not_lt.2 hy0)
  have hexp : ∀ t ∈ Icc q.l q.u, exp (alpha * (log (alpha * (yl + (t - q.l) * sc)) / alpha)) = alpha * (yl + (t - q.l) * sc) := by
    intro t ht
    rw [mul_div_cancel₀ _ ha, exp_log (hpos t ht)]
  refine ⟨_, fun t => log (alpha * (yl + (t - q.l) * sc)) / alpha, rfl, absorbs_of (H := fun x => exp (alpha * x) / alpha) (D := univ) (s := sc) (make_wf h) hlu hn (fun x _ => mem_univ x)
    (fun x _ => ?_) (fun x _ => exp_pos _) ?_ ?_ (fun t ht => ?_) (fun t ht => ?_) ?_ ?_ (fun t _ => mem_univ _) ?_⟩
  · have := (((hasDerivAt_id x).const_mul alpha).exp).div_const alpha
    have e : exp (alpha * id x) * (alpha * 1) / alpha = exp (alpha * x) := by simp only [id]; field_simp
    rwa [e] at this
  · fun_prop
  · rw [hsc]
  · rw [hexp t ht]; field_simp; rw [hyl]; field_simp
  · have hA := hpos t ht
    have hder : HasDerivAt (fun t => alpha * (yl + (t - q.l) * sc)) (alpha * (1 * sc)) t :=
      ((((hasDerivAt_id t).sub_const q.l).mul_const sc).const_add yl).const_mul alpha
    have hd2 := (hder.log hA.ne').div_const alpha
    have e : sc / exp (alpha * (log (alpha * (yl + (t - q.l) * sc)) / alpha)) = alpha * (1 * sc) / (alpha * (yl + (t - q.l) * sc)) / alpha := by
      rw [hexp t ht]
      set A := yl + (t - q.l) * sc
      have : A ≠ 0 := by intro h0; rw [h0] at hA; simp at hA
      field_simp
    simp only [e]
    exact hd2
  · simp only [sub_self, zero_mul, add_zero]
    rw [hyl, mul_div_cancel₀ _ ha, log_exp, mul_div_cancel_left₀ _ ha]
  · have : yl + (q.u - q.l) * sc = yu := by rw [hsc]; field_simp; ring
    simp only [this]
    rw [hyu, mul_div_cancel₀ _ ha, log_exp, mul_div_cancel_left₀ _ ha]
  · congr 1
    · rw [List.map_map]; rfl
    · rw [List.zipWith_map]
      refine zip_congr _ _ fun b hb a => ?_
      rw [hexp b (hn b hb)]
      have hA := hpos b (hn b hb)
      set A := yl + (b - q.l) * sc
      have : A ≠ 0 := by intro h0; rw [h0] at hA; simp at hA
      field_simp

/-- The trapezoidal rule on [0, 3] and a falling exponential. -/
example : ∃ m, expMake (-2) (.two [0, 3] [3 / 2, 3 / 2]) = .ok m ∧ m.quad (.fn fun x => 5 * exp (-2 * x)) = .ok (∫ x in (0 : ℝ)..3, 5 * exp (-2 * x)) := by
  obtain ⟨m, X, hm, hA⟩ := C143_exponential (-2) (by norm_num) (.two [0, 3] [3 / 2, 3 / 2]) ⟨true, 0, 3, [0, 3], [3 / 2, 3 / 2]⟩ (by simp [Q.make]) (by norm_num) (by simp)
  exact ⟨m, hm, hA.factor (by simp [Q.sum]) 5⟩

end Verif.Quad
