import Verif.Lk.GridProps
import Mathlib.MeasureTheory.Integral.Gamma
import Mathlib.Analysis.SpecialFunctions.Gamma.Basic
import Mathlib.Analysis.Complex.ExponentialBounds

/-!
# Properties C195-C198: the likelihood, its bookkeeping, moments and cumulative distribution
-/

set_option linter.unusedSectionVars false

noncomputable section

namespace Verif.Lk

open Real Set

/-! ## C195: the likelihood -/

/-- Specification: the likelihood of a Poisson process whose rates are `s` times those of the model. -/
def poisson (day reff tobs : ℝ) (qs : List ℝ) (s : ℝ) : ℝ := (qs.map fun q => s * q).prod * exp (-(s * (tobs * day * reff)))

theorem exp_terms {tiny : ℝ} (ht : 0 ≤ tiny) (qs : List ℝ) (h : ∀ q ∈ qs, tiny < q) : exp ((qs.map (term tiny)).sum) = qs.prod := by
  induction qs with
  | nil => simp
  | cons q l ih =>
      have hq := h q (by simp)
      rw [List.map_cons, List.sum_cons, List.prod_cons, exp_add, ih fun x hx => h x (List.mem_cons_of_mem _ hx), term, if_pos hq, exp_log (ht.trans_lt hq)]

/-- C195: the full likelihood is that of a Poisson process, for every scale of the rates. -/
theorem C195_full {tiny day reff tobs s : ℝ} {qs : List ℝ} (ht : 0 ≤ tiny) (h : ∀ q ∈ qs, tiny < s * q) :
    exp (ljlike tiny day false (s * reff) tobs (qs.map fun q => s * q)) = poisson day reff tobs qs s := by
  simp only [ljlike, bquad, Bool.false_eq_true, if_false]
  rw [sub_eq_add_neg, exp_add, poisson, List.map_map]
  congr 1
  · have := exp_terms ht (qs.map fun q => s * q) (by simpa using h)
    rw [List.map_map] at this
    exact this
  · congr 1; ring

theorem prod_scale (c : ℝ) (qs : List ℝ) : (qs.map fun q => c * q).prod = c ^ qs.length * qs.prod := by
  induction qs with
  | nil => simp
  | cons q l ih => rw [List.map_cons, List.prod_cons, ih, List.length_cons, List.prod_cons]; ring

/-- C195: the marginal likelihood is, up to a factor that depends only on the number of bursts, the full one integrated over the scale with a Jeffreys prior. -/
theorem C195_marginal {tiny day reff tobs : ℝ} {qs : List ℝ} (ht : 0 ≤ tiny) (hd : 0 < day) (hr : 0 < reff) (hT : 0 < tobs) (hne : qs ≠ []) (h : ∀ q ∈ qs, tiny < q / reff / tobs) :
    ∫ s in Ioi (0 : ℝ), poisson day reff tobs qs s / s = Gamma qs.length / day ^ qs.length * exp (ljlike tiny day true reff tobs qs) := by
  have hn : (0 : ℝ) < qs.length := by exact_mod_cast List.length_pos_iff.2 hne
  set a := tobs * day * reff with ha
  have ha0 : 0 < a := by positivity
  have e1 : ∫ s in Ioi (0 : ℝ), poisson day reff tobs qs s / s = ∫ s in Ioi (0 : ℝ), qs.prod * (s ^ ((qs.length : ℝ) - 1) * exp (-(a * s))) := by
    refine MeasureTheory.setIntegral_congr_fun measurableSet_Ioi fun s hs => ?_
    have hs0 : (0 : ℝ) < s := hs
    simp only [poisson]
    rw [prod_scale, rpow_sub_one hs0.ne', rpow_natCast, mul_comm a s]
    ring
  have e2 : exp (ljlike tiny day true reff tobs qs) = qs.prod / (reff * tobs) ^ qs.length := by
    simp only [ljlike, bquad, if_true]
    have e3 := exp_terms ht (qs.map fun q => q / reff / tobs) (by simpa using h)
    rw [List.map_map] at e3
    have e4 : (qs.map fun q => q / reff / tobs) = qs.map fun q => (reff * tobs)⁻¹ * q := by
      refine List.map_congr_left fun q _ => ?_
      field_simp
    rw [e4, prod_scale] at e3
    rw [inv_pow] at e3
    refine Eq.trans ?_ (e3.trans (by ring))
    rfl
  rw [e1, MeasureTheory.integral_const_mul, integral_rpow_mul_exp_neg_mul_Ioi hn ha0, e2, one_div, inv_rpow ha0.le, rpow_natCast, ha, mul_pow, mul_pow, mul_pow]
  have : day ^ qs.length ≠ 0 := (pow_pos hd _).ne'
  have : reff ^ qs.length ≠ 0 := (pow_pos hr _).ne'
  have : tobs ^ qs.length ≠ 0 := (pow_pos hT _).ne'
  field_simp

/-- C195: the marginal likelihood does not depend on the scale of the rates. -/
theorem C195_invariant {tiny day reff tobs c : ℝ} {qs : List ℝ} (hc : 0 < c) : ljlike tiny day true (c * reff) tobs (qs.map fun q => c * q) = ljlike tiny day true reff tobs qs := by
  simp only [ljlike, bquad, if_true, List.map_map]
  congr 1
  refine List.map_congr_left fun q _ => ?_
  simp only [Function.comp]
  rw [mul_div_mul_left _ _ hc.ne']

/-- C195: the scale `modout` writes is where the likelihood is largest. -/
theorem C195_mode {day reff tobs : ℝ} {qs : List ℝ} (hd : 0 < day) (hr : 0 < reff) (hT : 0 < tobs) (hne : qs ≠ []) (hq : ∀ q ∈ qs, 0 < q) :
    0 < scale day reff tobs qs.length ∧ ∀ s, 0 < s → poisson day reff tobs qs s ≤ poisson day reff tobs qs (scale day reff tobs qs.length) := by
  have hn : (0 : ℝ) < qs.length := by exact_mod_cast List.length_pos_iff.2 hne
  have ha0 : 0 < tobs * day * reff := by positivity
  have hs0 : 0 < scale day reff tobs qs.length := div_pos hn ha0
  refine ⟨hs0, fun s hs => ?_⟩
  have hP : 0 < qs.prod := List.prod_pos hq
  rw [poisson, poisson, prod_scale, prod_scale, mul_right_comm, mul_right_comm _ qs.prod]
  refine mul_le_mul_of_nonneg_right ?_ hP.le
  set a := tobs * day * reff
  rw [← exp_log (pow_pos hs qs.length), ← exp_log (pow_pos hs0 qs.length), ← exp_add, ← exp_add, exp_le_exp, log_pow, log_pow]
  have e : scale day reff tobs qs.length * a = qs.length := by rw [scale]; exact div_mul_cancel₀ _ ha0.ne'
  rw [e]
  have hx : 0 < s / scale day reff tobs qs.length := div_pos hs hs0
  have hl := log_le_sub_one_of_pos hx
  rw [log_div hs.ne' hs0.ne'] at hl
  have e3 : s / scale day reff tobs qs.length = s * a / qs.length := by
    rw [scale, div_div_eq_mul_div]
  rw [e3] at hl
  have := mul_le_mul_of_nonneg_left hl hn.le
  rw [mul_sub, mul_sub, mul_div_cancel₀ _ hn.ne', mul_one] at this
  linarith

/-- C195: for superpositions the distribution is the mixture of those of the components, with the weights asked for, including none of one of them. -/
theorem C195_mixture {fh r1 r2 tobs qc qh : ℝ} (h1 : fh ≠ 1 → r1 ≠ 0) (h2 : fh ≠ 0 → r2 ≠ 0) : bquad3 fh r1 r2 tobs qc qh = ((1 - fh) * (qc / r1) + fh * (qh / r2)) / tobs := by
  simp only [bquad3]
  congr 1
  split_ifs with ha hb
  · subst ha; simp
  · subst hb; simp
  · have e1 := h1 ha
    have e2 := h2 hb
    have e3 : 1 - fh ≠ 0 := sub_ne_zero.2 (Ne.symm ha)
    field_simp

/-- C195: the floor for very small rates keeps the order: a larger rate never gives a smaller likelihood. -/
theorem C195_floor {a b : ℝ} (h : a ≤ b) : term (1 / 10 ^ 200) a ≤ term (1 / 10 ^ 200) b := by
  have ht : (0 : ℝ) < 1 / 10 ^ 200 := by positivity
  have hl : -500 ≤ log (1 / 10 ^ 200) := by
    rw [one_div, log_inv, log_pow]
    have : log 10 ≤ 5 / 2 := by
      rw [log_le_iff_le_exp (by norm_num)]
      have h1 : exp (5 / 2) ^ 2 = exp 1 ^ 5 := by rw [← exp_nat_mul, ← exp_nat_mul]; norm_num
      have h2 : (2.7 : ℝ) ^ 5 ≤ exp 1 ^ 5 := pow_le_pow_left₀ (by norm_num) (by linarith [exp_one_gt_d9]) 5
      have h3 : (10 : ℝ) ^ 2 ≤ exp (5 / 2) ^ 2 := by rw [h1]; exact le_trans (by norm_num) h2
      exact le_of_sq_le_sq h3 (exp_pos _).le
    push_cast
    linarith
  rw [term, term]
  split_ifs with ha hb hb
  · exact log_le_log (ht.trans ha) h
  · exact absurd (lt_of_lt_of_le ha h) hb
  · exact hl.trans (log_le_log ht (le_of_lt hb))
  · exact le_rfl

/-! ## C196: what has been calculated -/

/-- Specification: the likelihoods a history must return, for the parameters and the type in force. -/
def outs {P : Type} (L : P → Bool → ℝ) : P → Bool → List (Op P) → List ℝ
  | _, _, [] => []
  | _, m, .set p :: l => outs L p m l
  | p, m, .newpar :: l => outs L p m l
  | p, m, .lkreset :: l => outs L p m l
  | p, _, .setLtype m :: l => outs L p m l
  | p, m, .like :: l => L p m :: outs L p m l

/-- Histories in which a change of parameters is announced before the likelihood is asked for. -/
def Announced {P : Type} : Bool → List (Op P) → Prop
  | _, [] => True
  | _, .set _ :: l => Announced true l
  | _, .newpar :: l => Announced false l
  | _, .lkreset :: l => Announced false l
  | _, .setLtype _ :: l => Announced false l
  | d, .like :: l => d = false ∧ Announced d l

theorem run_outs {P : Type} {rate : P → ℝ} {like : P → Bool → ℝ → ℝ} (ops : List (Op P)) : ∀ (s : St P) (d : Bool), Announced d ops →
    (d = false → (s.didR = true → s.reff = rate s.par) ∧ (s.didl = true → s.llcur = like s.par s.marg (rate s.par))) →
    (run rate like s ops).2 = outs (fun p m => like p m (rate p)) s.par s.marg ops := by
  induction ops with
  | nil => intro s d _ _; rfl
  | cons o l ih =>
      intro s d ha hinv
      cases o with
      | set p =>
          simp only [run, step, outs, Option.toList_none, List.nil_append]
          exact ih { s with par := p } true ha (by simp)
      | newpar =>
          simp only [run, step, outs, Option.toList_none, List.nil_append]
          exact ih { s with didR := false, didl := false } false ha (by simp)
      | lkreset =>
          simp only [run, step, outs, Option.toList_none, List.nil_append]
          exact ih { s with didR := false, didl := false } false ha (by simp)
      | setLtype m =>
          simp only [run, step, outs, Option.toList_none, List.nil_append]
          exact ih { s with marg := m, didR := false, didl := false } false ha (by simp)
      | like =>
          obtain ⟨hd, ha'⟩ := ha
          obtain ⟨h1, h2⟩ := hinv hd
          simp only [run, step, outs]
          by_cases hl : s.didl = true
          · simp only [if_pos hl, Option.toList_some, List.singleton_append]
            rw [ih s d ha' hinv, h2 hl]
          · simp only [if_neg hl, Option.toList_some, List.singleton_append]
            have hr : (if s.didR = true then s.reff else rate s.par) = rate s.par := by
              split_ifs with hR
              · exact h1 hR
              · rfl
            rw [hr]
            congr 1
            exact ih { s with didR := true, reff := rate s.par, llcur := like s.par s.marg (rate s.par), didl := true } d ha' (fun _ => ⟨fun _ => rfl, fun _ => rfl⟩)

/-- C196: in every history in which changes of parameters are announced with `newpar`, `lkreset` or `set_ltype`, every likelihood returned is that of the parameters and the type in force, whatever is reused. -/
theorem C196_history {P : Type} {rate : P → ℝ} {like : P → Bool → ℝ → ℝ} (p : P) (m : Bool) (r l : ℝ) (ops : List (Op P)) (h : Announced false ops) :
    (run rate like ⟨p, m, false, false, r, l⟩ ops).2 = outs (fun p m => like p m (rate p)) p m ops :=
  run_outs ops ⟨p, m, false, false, r, l⟩ false h (by simp)

/-- C196: repeated evaluation returns the same value. -/
theorem C196_repeat {P : Type} {rate : P → ℝ} {like : P → Bool → ℝ → ℝ} (s : St P) : step rate like (step rate like s .like).1 .like = ((step rate like s .like).1, (step rate like s .like).2) := by
  by_cases h : s.didl = true
  · simp [step, h]
  · simp [step, h]

/-- C196: the announcement is needed. -/
theorem C196_needed {P : Type} {rate : P → ℝ} {like : P → Bool → ℝ → ℝ} (p q : P) (m : Bool) (r l : ℝ) :
    (run rate like ⟨p, m, false, false, r, l⟩ [.like, .set q, .like]).2 = [like p m (rate p), like p m (rate p)] := by
  simp [run, step]

example : Announced (P := ℝ) false [.like, .set 1, .newpar, .like, .setLtype true, .like] := by simp [Announced]

/-! ## C197: moments -/

theorem seg_mul {f1 f2 y1 y2 k : ℝ} (hk : k ≠ 0) (hy : y2 * y1 > 0) : seg f1 f2 (k * y1) (k * y2) = k * seg f1 f2 y1 y2 := by
  simp only [seg]
  have e1 : (k * y2) * (k * y1) = k ^ 2 * (y2 * y1) := by ring
  have e2 : k * y2 / (k * y1) = y2 / y1 := mul_div_mul_left _ _ hk
  have e3 : k ^ 2 * (y2 * y1) > 0 := by positivity
  rw [e1, e2, if_pos e3, if_pos hy]
  split_ifs <;> ring

/-- A point at which a fraction `k` of the rate is the dipole and a fraction `m` the quadrupole. -/
def Const (k m : ℝ) (p : Pt) : Prop := p.d = k * p.r ∧ p.q = m * p.r ∧ 0 ≤ p.e ∧ 0 ≤ p.r

theorem segD_const {f1 f2 e1 e2 r1 r2 k : ℝ} (he1 : 0 ≤ e1) (he2 : 0 ≤ e2) (hr1 : 0 ≤ r1) (hr2 : 0 ≤ r2) : segD f1 f2 e1 e2 r1 r2 (k * r1) (k * r2) = k * seg f1 f2 (e1 * r1) (e2 * r2) := by
  simp only [segD]
  by_cases hy : (e2 * r2) * (e1 * r1) > 0
  · rw [if_pos hy]
    have p1 : 0 < r1 := lt_of_le_of_ne hr1 (by rintro rfl; simp at hy)
    have p2 : 0 < r2 := lt_of_le_of_ne hr2 (by rintro rfl; simp at hy)
    by_cases hk : k = 0
    · subst hk
      simp
    · have hpos : ¬ (k * r1) * (k * r2) ≤ 0 := by
        rw [not_le, show (k * r1) * (k * r2) = k ^ 2 * (r1 * r2) by ring]; positivity
      rw [if_neg hpos, ← seg_mul hk hy]
      simp only [seg]
      have e3 : k * (e2 * r2) * (k * (e1 * r1)) > 0 := by
        rw [show k * (e2 * r2) * (k * (e1 * r1)) = k ^ 2 * ((e2 * r2) * (e1 * r1)) by ring]; positivity
      rw [if_pos e3]
      simp only [show e1 * (k * r1) = k * (e1 * r1) by ring, show e2 * (k * r2) = k * (e2 * r2) by ring]
  · rw [if_neg hy, seg, if_neg hy]; ring

theorem segQ_const {f1 f2 e1 e2 r1 r2 m : ℝ} (he1 : 0 ≤ e1) (he2 : 0 ≤ e2) (hr1 : 0 ≤ r1) (hr2 : 0 ≤ r2) (hm : 0 ≤ m) : segQ f1 f2 e1 e2 r1 r2 (m * r1) (m * r2) = m * seg f1 f2 (e1 * r1) (e2 * r2) := by
  rw [← segD_const he1 he2 hr1 hr2]
  simp only [segQ, segD]
  by_cases hy : (e2 * r2) * (e1 * r1) > 0
  · have p1 : 0 < r1 := lt_of_le_of_ne hr1 (by rintro rfl; simp at hy)
    have p2 : 0 < r2 := lt_of_le_of_ne hr2 (by rintro rfl; simp at hy)
    have : (m * r1 ≤ 0 ∨ m * r2 ≤ 0) ↔ (m * r1) * (m * r2) ≤ 0 := by
      rcases hm.lt_or_eq with hm | rfl
      · have a1 := mul_pos hm p1
        have a2 := mul_pos hm p2
        have a3 := mul_pos a1 a2
        constructor
        · rintro (h | h) <;> linarith
        · intro h; linarith
      · simp
    simp only [this]
  · rw [if_neg hy, if_neg hy]

/-- C197: if the anisotropy is the same at all fluxes, so are the total moments, for every grid and efficiency.

Missing: the moments of a mixture need not be between those of its parts (`C197_violated_range`). -/
theorem C197_constant_partial {k m : ℝ} (hm : 0 ≤ m) {l : List Pt} (h : ∀ p ∈ l, Const k m p) : (sums l).2.1 = k * (sums l).1 ∧ (sums l).2.2 = m * (sums l).1 := by
  induction l with
  | nil => simp [sums]
  | cons a l ih =>
      cases l with
      | nil => simp [sums]
      | cons b l =>
          obtain ⟨i1, i2⟩ := ih fun p hp => h p (List.mem_cons_of_mem _ hp)
          obtain ⟨ad, aq, ae, ar⟩ := h a (by simp)
          obtain ⟨bd, bq, be, br⟩ := h b (by simp)
          simp only [sums]
          rw [i1, i2, ad, bd, aq, bq, segD_const ae be ar br, segQ_const ae be ar br hm]
          constructor <;> ring

/-- C197: in particular a quadrupole of one third, as for isotropy, is reported as zero. -/
theorem C197_isotropic {l : List Pt} (h : ∀ p ∈ l, Const 0 (1 / 3) p) (h0 : (sums l).1 ≠ 0) : moms l = some (0, 0) := by
  obtain ⟨a, b⟩ := C197_constant_partial (by norm_num) h
  simp only [moms]
  rw [if_neg h0, a, b, zero_mul, zero_div, mul_div_assoc, div_self h0]
  norm_num

/-- C197 fails for mixtures: a dipole moment, the mean of a cosine, can exceed 1. Here it is 1 at flux 1 and 0 at flux 2, and the total is 4/3. -/
theorem C197_violated_range : moms [⟨1, 1, 1, 1, 1⟩, ⟨2, 1, 1 / 8, 0, 0⟩] = some (4 / 3, 1) := by
  have hs : log ((1 * (1 / 8) : ℝ) / (1 * 1)) / log (2 / 1) = -3 := by
    rw [show (1 * (1 / 8) : ℝ) / (1 * 1) = (2 ^ 3)⁻¹ by norm_num, show (2 : ℝ) / 1 = 2 by norm_num, log_inv, log_pow]
    have := (log_pos one_lt_two).ne'
    push_cast
    field_simp
  have p : ((2 : ℝ) / 1) ^ (-3 + 1 : ℝ) = 1 / 4 := by
    rw [show (-3 + 1 : ℝ) = -(2 : ℝ) by norm_num, rpow_neg (by norm_num)]; norm_num
  have e : sums [⟨1, 1, 1, 1, 1⟩, ⟨2, 1, 1 / 8, 0, 0⟩] = (3 / 8, 1 / 2, 1 / 2) := by
    simp only [sums, seg, segD, segQ]
    rw [hs, p]
    norm_num
  simp only [moms]
  rw [e]
  norm_num

example : Const (1 / 2) (1 / 3) ⟨1, 1, 2, 1, 2 / 3⟩ := by simp only [Const]; norm_num

/-! ## C198: the cumulative distribution -/

/-- C198: the contributions of `wmodel` are those of `lksetup`, where they exist.

Missing: an interval at whose end alone the rate vanishes (`C198_violated_end`). -/
theorem C198_same_partial {f1 f2 y1 y2 v : ℝ} (h1 : 0 ≤ y1) (h2 : 0 ≤ y2) (h : wSeg f1 f2 y1 y2 = some v) : v = seg f1 f2 y1 y2 := by
  simp only [wSeg, seg] at h ⊢
  by_cases a : y1 = 0
  · rw [if_pos a] at h
    rw [← Option.some.inj h, a, mul_zero, if_neg (lt_irrefl _)]; ring
  · rw [if_neg a] at h
    by_cases b : y2 = 0
    · rw [if_pos b] at h; cases h
    · rw [if_neg b] at h
      have p1 := lt_of_le_of_ne h1 (Ne.symm a)
      have p2 := lt_of_le_of_ne h2 (Ne.symm b)
      rw [← Option.some.inj h, if_pos (mul_pos p2 p1)]

/-- C198 fails for an interval at whose end alone the rate vanishes: `lksetup` uses the trapezoid rule, `wmodel` the logarithm of zero. -/
theorem C198_violated_end {f1 f2 y1 : ℝ} (h1 : 0 < y1) : wSeg f1 f2 y1 0 = none ∧ seg f1 f2 y1 0 = 1 / 2 * y1 * (f2 - f1) := by
  simp [wSeg, seg, h1.ne']

/-- C198: the cumulative distribution written is the fraction of the rate above each point of the grid. -/
theorem C198_fraction {rs : List ℝ} {c : ℝ} (rtot : ℝ) (h0 : rtot ≠ 0) (hc : c = rs.sum / rtot) {i : ℕ} (hi : i ≤ rs.length) : (cums rtot c rs)[i]? = some ((rs.drop i).sum / rtot) := by
  induction rs generalizing c i with
  | nil =>
      have : i = 0 := by simpa using hi
      subst this
      simp [cums, hc]
  | cons r l ih =>
      cases i with
      | zero => simp [cums, hc]
      | succ i =>
          rw [cums, List.getElem?_cons_succ, List.drop_succ_cons]
          refine ih ?_ (by simpa using hi)
          rw [hc, List.sum_cons]; ring

/-- C198: so it starts at one, ends at zero and, for nonnegative rates, never increases. -/
theorem C198_ends {rs : List ℝ} (h0 : rs.sum ≠ 0) : (cums rs.sum 1 rs)[0]? = some 1 ∧ (cums rs.sum 1 rs)[rs.length]? = some 0 ∧
    (0 < rs.sum → (∀ r ∈ rs, 0 ≤ r) → (cums rs.sum 1 rs).Pairwise (· ≥ ·)) := by
  have hc : (1 : ℝ) = rs.sum / rs.sum := (div_self h0).symm
  refine ⟨?_, ?_, ?_⟩
  · rw [C198_fraction rs.sum h0 hc (Nat.zero_le _), List.drop_zero, div_self h0]
  · rw [C198_fraction rs.sum h0 hc le_rfl]; simp
  · intro hp
    generalize rs.sum = t at hp
    generalize (1 : ℝ) = c
    intro hr
    have key : ∀ (l : List ℝ) (c : ℝ), (∀ r ∈ l, 0 ≤ r) → (cums t c l).Pairwise (· ≥ ·) ∧ ∀ x ∈ cums t c l, x ≤ c := by
      intro l
      induction l with
      | nil => intro c _; simp [cums]
      | cons r l ih =>
          intro c h
          obtain ⟨i1, i2⟩ := ih (c - r / t) fun x hx => h x (List.mem_cons_of_mem _ hx)
          have hd : 0 ≤ r / t := div_nonneg (h r (by simp)) hp.le
          have hle : ∀ x ∈ cums t (c - r / t) l, x ≤ c := fun x hx => (i2 x hx).trans (by linarith)
          simp only [cums]
          refine ⟨List.pairwise_cons.2 ⟨hle, i1⟩, fun x hx => ?_⟩
          rcases List.mem_cons.1 hx with rfl | hx
          · exact le_rfl
          · exact hle x hx
    exact (key rs c hr).1

example : cums 4 1 [1, 2, 1] = [1, 3 / 4, 1 / 4, 0] := by simp only [cums]; norm_num

end Verif.Lk
