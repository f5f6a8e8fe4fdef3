import Verif.Count.OnOffProps
import Mathlib.MeasureTheory.Integral.IntegralEqImproper
import Mathlib.Analysis.Calculus.Deriv.Add
import Mathlib.Analysis.Calculus.Deriv.Mul

/-!
# Counting with a constant background: what the series stand for (C81 to C85)
-/

set_option linter.unusedSectionVars false
set_option linter.unusedSimpArgs false

namespace Verif.OnOff

open Finset MeasureTheory Set

/-! ## Specification -/

/-- The Poisson probability of `n` counts when `m` are expected. -/
noncomputable def pois (n : ℕ) (m : ℝ) : ℝ := m ^ n * Real.exp (-m) / n.factorial

/-- The likelihood of the signal rate `s`, marginalised over a background rate with a flat prior. -/
noncomputable def marg (non : ℕ) (ton : ℝ) (noff : ℕ) (toff s : ℝ) : ℝ :=
  ∫ b in Ioi (0 : ℝ), pois non ((s + b) * ton) * pois noff (b * toff)

/-! ## Gamma integrals -/

theorem gint_integrable (n : ℕ) {r : ℝ} (hr : 0 < r) : IntegrableOn (fun b : ℝ => b ^ n * Real.exp (-(r * b))) (Ioi 0) := by
  have hn : (0 : ℝ) ≤ n := by positivity
  have := integrableOn_rpow_mul_exp_neg_mul_rpow (p := 1) (s := n) (b := r) (by linarith) one_pos hr
  refine this.congr_fun (fun x hx => ?_) measurableSet_Ioi
  simp [Real.rpow_natCast]

theorem gint (n : ℕ) {r : ℝ} (hr : 0 < r) : ∫ b in Ioi (0 : ℝ), b ^ n * Real.exp (-(r * b)) = n.factorial / r ^ (n + 1) := by
  have := Real.integral_rpow_mul_exp_neg_mul_Ioi (a := (n : ℝ) + 1) (r := r) (by positivity) hr
  rw [Real.Gamma_nat_eq_factorial] at this
  have e : ((n : ℝ) + 1) = ((n + 1 : ℕ) : ℝ) := by push_cast; ring
  rw [e, Real.rpow_natCast] at this
  rw [← e, add_sub_cancel_right] at this
  simp only [Real.rpow_natCast] at this
  rw [this, one_div, inv_pow]
  field_simp

/-- The series of the marginal likelihood. -/
theorem marg_eq {ton toff : ℝ} (h1 : 0 < ton) (h2 : 0 < toff) (non noff : ℕ) (s : ℝ) :
    marg non ton noff toff s = ton ^ non * toff ^ noff / ((ton + toff) ^ (non + noff + 1) * noff.factorial) *
      (Real.exp (-(s * ton)) * ∑ k ∈ range (non + 1), trm (s * (ton + toff)) non noff k) := by
  have hτ : 0 < ton + toff := by positivity
  have hpt : ∀ b : ℝ, pois non ((s + b) * ton) * pois noff (b * toff) =
      ∑ k ∈ range (non + 1), (ton ^ non * toff ^ noff / (non.factorial * noff.factorial) * Real.exp (-(s * ton)) * (s ^ k * (non.choose k : ℝ))) *
        (b ^ (non - k + noff) * Real.exp (-((ton + toff) * b))) := by
    intro b
    have he : Real.exp (-((s + b) * ton)) * Real.exp (-(b * toff)) = Real.exp (-(s * ton)) * Real.exp (-((ton + toff) * b)) := by
      rw [← Real.exp_add, ← Real.exp_add]; congr 1; ring
    have hb : (s + b) ^ non = ∑ k ∈ range (non + 1), s ^ k * b ^ (non - k) * (non.choose k : ℝ) := add_pow s b non
    unfold pois
    rw [mul_pow, mul_pow, hb]
    calc (∑ k ∈ range (non + 1), s ^ k * b ^ (non - k) * (non.choose k : ℝ)) * ton ^ non * Real.exp (-((s + b) * ton)) / non.factorial *
          (b ^ noff * toff ^ noff * Real.exp (-(b * toff)) / noff.factorial)
        = ton ^ non * toff ^ noff / (non.factorial * noff.factorial) * (Real.exp (-((s + b) * ton)) * Real.exp (-(b * toff))) *
            ∑ k ∈ range (non + 1), s ^ k * b ^ (non - k) * (non.choose k : ℝ) * b ^ noff := by
          rw [Finset.sum_mul, Finset.sum_mul, Finset.sum_div, Finset.sum_mul, Finset.mul_sum]
          refine Finset.sum_congr rfl fun k _ => ?_
          field_simp
      _ = _ := by
          rw [he, Finset.mul_sum]
          refine Finset.sum_congr rfl fun k _ => ?_
          rw [pow_add]; ring
  unfold marg
  simp only [hpt]
  rw [integral_finsetSum _ fun k _ => ((gint_integrable _ hτ).const_mul _)]
  rw [← mul_assoc, Finset.mul_sum]
  refine Finset.sum_congr rfl fun k hk => ?_
  rw [Finset.mem_range] at hk
  rw [integral_const_mul, gint _ hτ]
  have hch : (non.choose k : ℝ) = non.factorial / (k.factorial * (non - k).factorial) := Nat.cast_choose ℝ (by omega)
  rw [hch, trm, mul_pow]
  have a : (non.factorial : ℝ) ≠ 0 := by positivity
  have b : (noff.factorial : ℝ) ≠ 0 := by positivity
  have c : (k.factorial : ℝ) ≠ 0 := by positivity
  have d : ((non - k).factorial : ℝ) ≠ 0 := by positivity
  have e : (ton + toff) ^ (non + noff + 1) = (ton + toff) ^ k * (ton + toff) ^ (non - k + noff + 1) := by
    rw [← pow_add]; congr 1; omega
  rw [e]
  field_simp

theorem marg_pos {ton toff : ℝ} (h1 : 0 < ton) (h2 : 0 < toff) (non noff : ℕ) {s : ℝ} (hs : 0 ≤ s) : 0 < marg non ton noff toff s := by
  rw [marg_eq h1 h2]
  have : 0 < ∑ k ∈ range (non + 1), trm (s * (ton + toff)) non noff k := by
    apply Finset.sum_pos' (fun k _ => by unfold trm; positivity) ⟨0, by simp, by simp [trm]; positivity⟩
  positivity

/-! ## C81 -/

theorem siglml_cases {g : ℝ → ℝ} (hg : Exact g) {ton toff cut off : ℝ} (h1 : 0 < ton) (h2 : 0 < toff) (hc : 0 ≤ cut) (non noff : ℕ) {s l : ℝ} (hs : 0 ≤ s)
    (hl : (slmlike g s non ton noff toff off cut).ll = some l) :
    let full := Real.exp (-(s * ton) - off) * ∑ k ∈ range (non + 1), trm (s * (ton + toff)) non noff k
    Real.exp l ≤ full ∧ full ≤ (1 + non * cut) * Real.exp l := by
  rcases hs.eq_or_lt with rfl | hs'
  · rw [(C60_zero hg ton toff off cut non noff).1] at hl
    simp only [Option.some.injEq] at hl
    have hS : 0 < ∑ k ∈ range (non + 1), trm (0 * (ton + toff)) non noff k :=
      Finset.sum_pos' (fun k _ => by unfold trm; positivity) ⟨0, by simp, by simp [trm]; positivity⟩
    have he : Real.exp l = Real.exp (-(0 * ton) - off) * ∑ k ∈ range (non + 1), trm (0 * (ton + toff)) non noff k := by
      rw [← hl, show ∀ a : ℝ, a - 0 * ton - off = -(0 * ton) - off + a by intro a; ring, Real.exp_add, Real.exp_log hS]
    dsimp only
    rw [← he]
    refine ⟨le_rfl, ?_⟩
    have : (0 : ℝ) ≤ non * cut := by positivity
    nlinarith [Real.exp_pos l]
  · obtain ⟨a, b, -⟩ := C60_accuracy hg hs' h1 h2 hc non noff hl
    exact ⟨a, b⟩

/-- **C81.**  There is a constant that depends only on the data such that, for every object with these data, in every state and for every signal rate that is not negative, the result of
`siglml` is the logarithm of the likelihood marginalised over the background up to this constant, too small by at most the factor `1 + on_cts cutoff`; if it does not raise a ValueError it is
a number. -/
theorem C81_siglml {g : ℝ → ℝ} (hg : Exact g) {ton toff : ℝ} (h1 : 0 < ton) (h2 : 0 < toff) (non noff : ℕ) :
    ∃ D > 0, ∀ {cut : ℝ} (_ : 0 ≤ cut) {o : Obj} (_ : OReach g non ton noff toff cut o) {s : ℝ} (_ : 0 ≤ s),
      o.siglml g s = .error .value ∨
      ∃ l, o.siglml g s = .ok (some l) ∧ D * Real.exp l ≤ marg non ton noff toff s ∧ marg non ton noff toff s ≤ (1 + non * cut) * (D * Real.exp l) := by
  have hoff : ∃ off, slmlOffset g non ton noff toff = some off := by
    rcases le_or_gt ((non : ℝ) / ton - noff / toff) 0 with h | h
    · exact ⟨_, (C61_offset hg h1 h2 non noff _ rfl).1 h⟩
    · obtain ⟨m, -, -, hm⟩ := (C61_offset hg h1 h2 non noff _ rfl).2 h
      exact ⟨_, hm⟩
  obtain ⟨off, hoff⟩ := hoff
  have hτ : 0 < ton + toff := by positivity
  refine ⟨ton ^ non * toff ^ noff / ((ton + toff) ^ (non + noff + 1) * noff.factorial) * Real.exp off, by positivity, ?_⟩
  intro cut hc o ho s hs
  obtain ⟨e1, e2, e3, e4, e5, e6, -⟩ := ho.inv
  unfold Obj.siglml
  rw [e6, hoff, e1, e2, e3, e4, e5]
  dsimp only
  by_cases hierr : (slmlike g s non ton noff toff off cut).ierr ≠ 0
  · left; rw [if_pos hierr]
  · right
    rw [if_neg hierr]
    have hsome : ∃ l, (slmlike g s non ton noff toff off cut).ll = some l := by
      rcases hs.eq_or_lt with rfl | hs'
      · exact ⟨_, (C60_zero hg ton toff off cut non noff).1⟩
      · obtain ⟨m, lo, hi, A, -, -, -, -, -, -, -, -, herr, hr⟩ := C60_series (g := g) (offset := off) hs' h1 h2 hc non noff
        by_cases hb : Real.log (A * trm (s * (ton + toff)) non noff m) < -700 ∨ 700 < Real.log (A * trm (s * (ton + toff)) non noff m)
        · exact absurd (herr hb).1 (by push Not at hierr; omega)
        · push Not at hb
          exact ⟨_, (hr hb).2.2⟩
    obtain ⟨l, hl⟩ := hsome
    obtain ⟨b1, b2⟩ := siglml_cases hg h1 h2 hc non noff hs hl
    refine ⟨l, by rw [hl], ?_, ?_⟩
    · rw [marg_eq h1 h2, mul_assoc]
      apply mul_le_mul_of_nonneg_left _ (by positivity)
      rw [sub_eq_add_neg, Real.exp_add] at b1
      calc Real.exp off * Real.exp l ≤ Real.exp off * (Real.exp (-(s * ton)) * Real.exp (-off) * ∑ k ∈ range (non + 1), trm (s * (ton + toff)) non noff k) :=
            mul_le_mul_of_nonneg_left b1 (Real.exp_pos _).le
        _ = (Real.exp off * Real.exp (-off)) * (Real.exp (-(s * ton)) * ∑ k ∈ range (non + 1), trm (s * (ton + toff)) non noff k) := by ring
        _ = _ := by rw [← Real.exp_add]; simp
    · rw [marg_eq h1 h2]
      rw [sub_eq_add_neg, Real.exp_add] at b2
      have : Real.exp (-(s * ton)) * ∑ k ∈ range (non + 1), trm (s * (ton + toff)) non noff k ≤ Real.exp off * ((1 + non * cut) * Real.exp l) := by
        calc Real.exp (-(s * ton)) * ∑ k ∈ range (non + 1), trm (s * (ton + toff)) non noff k
            = (Real.exp off * Real.exp (-off)) * (Real.exp (-(s * ton)) * ∑ k ∈ range (non + 1), trm (s * (ton + toff)) non noff k) := by
              rw [← Real.exp_add]; simp
          _ = Real.exp off * (Real.exp (-(s * ton)) * Real.exp (-off) * ∑ k ∈ range (non + 1), trm (s * (ton + toff)) non noff k) := by ring
          _ ≤ _ := mul_le_mul_of_nonneg_left b2 (Real.exp_pos _).le
      have hC : 0 ≤ ton ^ non * toff ^ noff / ((ton + toff) ^ (non + noff + 1) * noff.factorial) := by positivity
      have := mul_le_mul_of_nonneg_left this hC
      linarith

/-- The differences of the results for two signal rates are the logarithms of likelihood ratios if nothing is cut off. -/
theorem C81_ratio {g : ℝ → ℝ} (hg : Exact g) {ton toff : ℝ} (h1 : 0 < ton) (h2 : 0 < toff) (non noff : ℕ) {o o' : Obj} (ho : OReach g non ton noff toff 0 o)
    (ho' : OReach g non ton noff toff 0 o') {s s' l l' : ℝ} (hs : 0 ≤ s) (hs' : 0 ≤ s') (hl : o.siglml g s = .ok (some l)) (hl' : o'.siglml g s' = .ok (some l')) :
    l - l' = Real.log (marg non ton noff toff s / marg non ton noff toff s') := by
  obtain ⟨D, hD, h⟩ := C81_siglml hg h1 h2 non noff
  have key : ∀ {o : Obj} (_ : OReach g non ton noff toff 0 o) {s l : ℝ} (_ : 0 ≤ s) (_ : o.siglml g s = .ok (some l)), marg non ton noff toff s = D * Real.exp l := by
    intro o ho s l hs hl
    rcases h le_rfl ho hs with he | ⟨l0, e, b1, b2⟩
    · rw [he] at hl; cases hl
    · rw [e] at hl
      simp only [Except.ok.injEq, Option.some.injEq] at hl
      subst hl
      rw [mul_zero, add_zero, one_mul] at b2
      exact le_antisymm b2 b1
  rw [key ho hs hl, key ho' hs' hl', mul_div_mul_left _ _ hD.ne', ← Real.exp_sub, Real.log_exp]

/-- A case that meets the hypotheses: no counts, unit intervals, and signal rates 0 and 1. -/
example : ∃ l l', (Obj.new (fun x => Real.log (Real.Gamma x)) 0 1 0 1 0).siglml (fun x => Real.log (Real.Gamma x)) 0 = .ok (some l) ∧
    (Obj.new (fun x => Real.log (Real.Gamma x)) 0 1 0 1 0).siglml (fun x => Real.log (Real.Gamma x)) 1 = .ok (some l') ∧
    l - l' = Real.log (marg 0 1 0 1 0 / marg 0 1 0 1 1) := by
  have hoff : slmlOffset (fun x => Real.log (Real.Gamma x)) 0 1 0 1 = some 0 := by
    have := (C61_offset exact_gamma (ton := 1) (toff := 1) one_pos one_pos 0 0 0 (by simp)).1 le_rfl
    rw [this]; simp [trm]
  obtain ⟨m, lo, hi, A, hA0, hA, hmn, -, -, -, -, -, -, hr⟩ := C60_series (g := fun x => Real.log (Real.Gamma x)) (s := 1) (ton := 1) (toff := 1) (offset := 0) (cut := 0)
    one_pos one_pos one_pos le_rfl 0 0
  have hm : m = 0 := by omega
  subst hm
  have hT : trm (1 * (1 + 1)) 0 0 0 = 1 := by simp [trm]
  rw [hA exact_gamma, hT, mul_one, Real.log_exp] at hr
  obtain ⟨hi0, -, hl⟩ := hr (by norm_num)
  obtain ⟨e0, e0'⟩ := C60_zero exact_gamma 1 1 0 0 0 0
  obtain ⟨l, hl'⟩ : ∃ l, some l = some (Real.log (∑ k ∈ range (0 + 1), trm (0 * (1 + 1)) 0 0 k) - 0 * 1 - 0) := ⟨_, rfl⟩
  obtain ⟨l', hl''⟩ : ∃ l, some l = (slmlike (fun x => Real.log (Real.Gamma x)) 1 0 1 0 1 0 0).ll := ⟨_, hl.symm⟩
  have e1 : (Obj.new (fun x => Real.log (Real.Gamma x)) 0 1 0 1 0).siglml (fun x => Real.log (Real.Gamma x)) 0 = .ok (some l) := by
    unfold Obj.siglml Obj.new
    rw [hoff]
    dsimp only
    rw [if_neg (by rw [e0']; simp), e0, hl']
  have e2 : (Obj.new (fun x => Real.log (Real.Gamma x)) 0 1 0 1 0).siglml (fun x => Real.log (Real.Gamma x)) 1 = .ok (some l') := by
    unfold Obj.siglml Obj.new
    rw [hoff]
    dsimp only
    rw [if_neg (by rw [hi0]; simp), hl'']
  exact ⟨_, _, e1, e2, C81_ratio exact_gamma one_pos one_pos 0 0 .new .new le_rfl zero_le_one e1 e2⟩

/-! ## C82 -/

theorem psigcLoop_val {g : ℝ → ℝ} (hg : Exact g) (ton : ℝ) {st : ℝ} (hst : 0 ≤ st) (f : ℕ → ℝ) : ∀ (n i : ℕ) (t : Table) (p : ℝ), Reach g t →
    (psigcLoop g ton st t i p ((List.range' i n).map f)).2 = p + ∑ j ∈ Finset.Ico i (i + n), f j * ton * pois j st ∧
    Reach g (psigcLoop g ton st t i p ((List.range' i n).map f)).1 := by
  intro n
  induction n with
  | zero => intro i t p h; simp [psigcLoop, h]
  | succ n ih =>
    intro i t p h
    rw [List.range'_succ, List.map_cons, psigcLoop]
    obtain ⟨h1, h2⟩ := ih (i + 1) _ (p + f i * ton * (ppois g t i st).2) (.call t i st h)
    refine ⟨?_, h2⟩
    rw [h1, Finset.sum_eq_sum_Ico_succ_bot (by omega : i < i + (n + 1)), C62_poisson hg h i hst, pois, show i + 1 + n = i + (n + 1) by omega]
    ring

theorem sigmp_val {g : ℝ → ℝ} (hg : Exact g) {ton toff : ℝ} (h1 : 0 < ton) (h2 : 0 < toff) {non noff : ℕ} {cut : ℝ} {o : Obj} (ho : OReach g non ton noff toff cut o) {t : Table}
    (ht : Reach g t) {s : ℝ} (hs : 0 ≤ s) :
    (o.sigmp g t s).2.2 = ∑ i ∈ range (non + 1), wgt (1 + toff / ton) non noff i / (∑ j ∈ range (non + 1), wgt (1 + toff / ton) non noff j) * ton * pois i (s * ton) ∧
    Reach g (o.sigmp g t s).1 := by
  obtain ⟨hp, -, hi⟩ := ho.fill_p
  unfold Obj.sigmp psigc
  dsimp only
  rw [hp, hi, Option.getD_some, sigctp, coeffsFrom_eq h1 h2 non noff _ (startIdx_le non ton noff toff), List.range_eq_range']
  have := psigcLoop_val hg ton (st := s * ton) (by positivity) (fun i => wgt (1 + toff / ton) non noff i / ∑ j ∈ range (non + 1), wgt (1 + toff / ton) non noff j)
    (non + 1) 0 t 0 ht
  refine ⟨?_, this.2⟩
  rw [this.1, zero_add, zero_add, Nat.Ico_zero_eq_range]

theorem pois_integrable {ton : ℝ} (h1 : 0 < ton) (i : ℕ) : IntegrableOn (fun s : ℝ => ton * pois i (s * ton)) (Ioi 0) := by
  have : IntegrableOn (fun s : ℝ => ton ^ (i + 1) / i.factorial * (s ^ i * Real.exp (-(ton * s)))) (Ioi 0) := (gint_integrable i h1).const_mul _
  refine this.congr_fun (fun s _ => ?_) measurableSet_Ioi
  simp only [pois]
  rw [mul_pow, mul_comm s ton, pow_succ]; field_simp

theorem pois_integral {ton : ℝ} (h1 : 0 < ton) (i : ℕ) : ∫ s in Ioi (0 : ℝ), ton * pois i (s * ton) = 1 := by
  have e : ∀ s : ℝ, ton * pois i (s * ton) = ton ^ (i + 1) / i.factorial * (s ^ i * Real.exp (-(ton * s))) := by
    intro s
    rw [pois, mul_pow, mul_comm s ton, pow_succ]; field_simp
  simp only [e]
  rw [integral_const_mul, gint i h1]
  have : (i.factorial : ℝ) ≠ 0 := by positivity
  field_simp

theorem wgt_trm {ton toff : ℝ} (h1 : 0 < ton) (non noff i : ℕ) (hi : i ≤ non) (s : ℝ) :
    wgt (1 + toff / ton) non noff i * pois i (s * ton) = Real.exp (-(s * ton)) * trm (s * (ton + toff)) non noff i := by
  have e : s * (ton + toff) = (1 + toff / ton) * (s * ton) := by field_simp
  have e2 : non + noff - i = non - i + noff := by omega
  rw [wgt, pois, trm, e, mul_pow (1 + toff / ton), e2]
  field_simp

/-- **C82.**  In every state of an object and of the factorial table, and for every signal rate that is not negative, `sigmp` is the marginal likelihood divided by its integral over the
signal rates; it is positive. -/
theorem C82_posterior {g : ℝ → ℝ} (hg : Exact g) {ton toff : ℝ} (h1 : 0 < ton) (h2 : 0 < toff) {non noff : ℕ} {cut : ℝ} {o : Obj} (ho : OReach g non ton noff toff cut o) {t : Table}
    (ht : Reach g t) {s : ℝ} (hs : 0 ≤ s) :
    (o.sigmp g t s).2.2 = marg non ton noff toff s / ∫ s' in Ioi (0 : ℝ), marg non ton noff toff s' ∧ 0 < (o.sigmp g t s).2.2 ∧ Reach g (o.sigmp g t s).1 := by
  have hρ : 0 < 1 + toff / ton := by positivity
  set W := ∑ j ∈ range (non + 1), wgt (1 + toff / ton) non noff j with hW
  have hW0 : 0 < W := Finset.sum_pos (fun i _ => wgt_pos hρ _ _ _) (by simp)
  set C := ton ^ non * toff ^ noff / ((ton + toff) ^ (non + noff + 1) * noff.factorial) with hC
  have hC0 : 0 < C := by positivity
  have hm : ∀ s : ℝ, marg non ton noff toff s = C * ∑ i ∈ range (non + 1), wgt (1 + toff / ton) non noff i * pois i (s * ton) := by
    intro s
    rw [marg_eq h1 h2, Finset.mul_sum]
    congr 1
    refine Finset.sum_congr rfl fun i hi => ?_
    rw [Finset.mem_range] at hi
    rw [wgt_trm h1 non noff i (by omega)]
  have hint : ∫ s' in Ioi (0 : ℝ), marg non ton noff toff s' = C * W / ton := by
    have e : ∀ s : ℝ, marg non ton noff toff s = ∑ i ∈ range (non + 1), (C / ton * wgt (1 + toff / ton) non noff i) * (ton * pois i (s * ton)) := by
      intro s
      rw [hm, Finset.mul_sum]
      refine Finset.sum_congr rfl fun i _ => ?_
      field_simp
    simp only [e]
    rw [integral_finsetSum (range (non + 1)) fun k _ => ((pois_integrable h1 k).const_mul _)]
    simp only [integral_const_mul, pois_integral h1, mul_one]
    rw [← Finset.mul_sum, ← hW]; ring
  obtain ⟨hv, hr⟩ := sigmp_val hg h1 h2 ho ht hs
  have heq : (o.sigmp g t s).2.2 = marg non ton noff toff s / ∫ s' in Ioi (0 : ℝ), marg non ton noff toff s' := by
    rw [hv, hint, hm, ← hW]
    clear_value W C
    rw [eq_div_iff (by positivity), Finset.sum_mul, Finset.mul_sum]
    refine Finset.sum_congr rfl fun i _ => ?_
    field_simp
  refine ⟨heq, ?_, hr⟩
  rw [heq, hint]
  exact div_pos (marg_pos h1 h2 non noff hs) (by positivity)

/-- **C82** (normalised).  The posterior density integrates to one over the signal rates. -/
theorem C82_normalised {g : ℝ → ℝ} (hg : Exact g) {ton toff : ℝ} (h1 : 0 < ton) (h2 : 0 < toff) {non noff : ℕ} {cut : ℝ} {o : Obj} (ho : OReach g non ton noff toff cut o)
    {t : Table} (ht : Reach g t) : ∫ s in Ioi (0 : ℝ), (o.sigmp g t s).2.2 = 1 := by
  have hρ : 0 < 1 + toff / ton := by positivity
  have hW0 : 0 < ∑ j ∈ range (non + 1), wgt (1 + toff / ton) non noff j := Finset.sum_pos (fun i _ => wgt_pos hρ _ _ _) (by simp)
  have e : ∫ s in Ioi (0 : ℝ), (o.sigmp g t s).2.2 = ∫ s in Ioi (0 : ℝ), ∑ i ∈ range (non + 1),
      (wgt (1 + toff / ton) non noff i / ∑ j ∈ range (non + 1), wgt (1 + toff / ton) non noff j) * (ton * pois i (s * ton)) := by
    refine setIntegral_congr_fun measurableSet_Ioi fun s hs => ?_
    rw [(sigmp_val hg h1 h2 ho ht (le_of_lt hs)).1]
    refine Finset.sum_congr rfl fun i _ => ?_
    ring
  rw [e, integral_finsetSum _ fun k _ => ((pois_integrable h1 _).const_mul _)]
  simp only [integral_const_mul, pois_integral h1, mul_one]
  rw [← Finset.sum_div, div_self hW0.ne']

example : ∫ s in Ioi (0 : ℝ), ((Obj.new (fun x => Real.log (Real.Gamma x)) 16 2 9 3 0).sigmp (fun x => Real.log (Real.Gamma x)) (Table.init fun _ => 0) s).2.2 = 1 :=
  C82_normalised exact_gamma (by norm_num) (by norm_num) .new (.init _)

/-! ## C83 -/

/-- **C83** (value).  The routine that also gives the derivative gives the same value, number of terms and error flag. -/
theorem C83_value (g : ℝ → ℝ) (s ton toff offset cut : ℝ) (non noff : ℕ) :
    let d := slmliked g s non ton noff toff offset cut
    let l := slmlike g s non ton noff toff offset cut
    d.sll = l.ll ∧ d.nt = l.nt ∧ d.ierr = l.ierr := by
  dsimp only
  unfold slmliked slmlike
  by_cases h0 : s = 0
  · simp [h0]
  rw [if_neg h0, if_neg h0]
  by_cases h1 : s < 0
  · simp [h1]
  rw [if_neg h1, if_neg h1]
  dsimp only
  split_ifs with h2
  · simp
  · set lt := Real.exp (lterm g s ton toff offset non noff (kmIdx (s * (ton + toff)) non noff))
    set km := kmIdx (s * (ton + toff)) non noff
    have a := downD_fst (cut * lt) s ton (s * (ton + toff)) (non + noff) non km.toNat lt lt (lt * (km / s - ton)) 1
    set d := downD (cut * lt) s ton (s * (ton + toff)) (non + noff) non km.toNat lt lt (lt * (km / s - ton)) 1
    rw [← a]
    have b := upD_fst (cut * lt) s ton (s * (ton + toff)) (non + noff) non (non - km.toNat) km.toNat lt d.1 d.2.1 d.2.2
    simp only
    rw [← b]
    simp

theorem trm_deriv (non noff k : ℕ) (τ s : ℝ) : HasDerivAt (fun s => trm (s * τ) non noff k) (k * s ^ (k - 1) * τ ^ k * (non - k + noff).factorial / ((non - k).factorial * k.factorial)) s := by
  have h := (hasDerivAt_pow k s).mul_const (τ ^ k * (non - k + noff).factorial / ((non - k).factorial * k.factorial))
  have e : (fun s => trm (s * τ) non noff k) = fun s => s ^ k * (τ ^ k * (non - k + noff).factorial / ((non - k).factorial * k.factorial)) := by
    funext s; simp only [trm, mul_pow]; ring
  rw [e]
  convert h using 1
  all_goals first | rfl | (simp only [mul_div_assoc]; ring)

/-- **C83.**  Without a cutoff, the derivative is the derivative of the logarithm of the marginal likelihood with respect to the signal rate, for every signal rate that is not negative
(at zero, if there are counts on source or off source, and the log gamma function is exact; for other signal rates its errors cancel).
Missing: a signal rate of zero without counts (`C83_violated`). -/
theorem C83_derivative_partial {g : ℝ → ℝ} {s ton toff offset : ℝ} (hg : s = 0 → Exact g) (hs : 0 ≤ s) (h1 : 0 < ton) (h2 : 0 < toff) (non noff : ℕ) (hc : s = 0 → 0 < non + noff)
    (hok : (slmliked g s non ton noff toff offset 0).ierr = 0) :
    ∃ d, (slmliked g s non ton noff toff offset 0).dsll = some d ∧ HasDerivAt (fun s => Real.log (marg non ton noff toff s)) d s := by
  have hτ : 0 < ton + toff := by positivity
  set C := ton ^ non * toff ^ noff / ((ton + toff) ^ (non + noff + 1) * noff.factorial) with hC
  have hC0 : 0 < C := by positivity
  set S := fun s => ∑ k ∈ range (non + 1), trm (s * (ton + toff)) non noff k with hS
  have hS0 : 0 < S s := Finset.sum_pos' (fun k _ => by unfold trm; positivity) ⟨0, by simp, by simp [trm]; positivity⟩
  have hSd : HasDerivAt S (∑ k ∈ range (non + 1), k * s ^ (k - 1) * (ton + toff) ^ k * (non - k + noff).factorial / ((non - k).factorial * k.factorial)) s :=
    HasDerivAt.fun_sum fun k _ => trm_deriv non noff k (ton + toff) s
  have hm : (fun s => Real.log (marg non ton noff toff s)) = fun s => Real.log (C * (Real.exp (-(s * ton)) * S s)) := by
    funext s; rw [marg_eq h1 h2]
  have hlog : HasDerivAt (fun s => Real.log (marg non ton noff toff s))
      ((∑ k ∈ range (non + 1), k * s ^ (k - 1) * (ton + toff) ^ k * (non - k + noff).factorial / ((non - k).factorial * k.factorial)) / S s - ton) s := by
    rw [hm]
    have he : HasDerivAt (fun s : ℝ => Real.exp (-(s * ton))) (Real.exp (-(s * ton)) * -(1 * ton)) s := ((hasDerivAt_id s).mul_const ton).neg.exp
    have hE := Real.exp_pos (-(s * ton))
    have hmul : HasDerivAt (fun s => Real.exp (-(s * ton)) * S s) _ s := he.mul hSd
    have := (hmul.const_mul C).log (by positivity)
    convert this using 1
    field_simp
    ring
  refine ⟨_, ?_, hlog⟩
  rcases hs.eq_or_lt with hs0 | hs'
  · -- no signal
    subst hs0
    have hg := hg rfl
    have hS1 : S 0 = (non + noff).factorial / non.factorial := by
      simp only [hS]
      rw [Finset.sum_range_succ', Finset.sum_eq_zero (fun k _ => by simp [trm])]
      simp [trm]
    unfold slmliked
    rw [if_pos rfl]
    dsimp only
    rcases Nat.eq_zero_or_pos non with rfl | hn
    · have : noff ≠ 0 := by have := hc rfl; omega
      rw [if_pos rfl, if_neg this]
      simp
    · rw [if_neg (by omega)]
      congr 1
      have e1 := hg (non + noff)
      have e2 := hg non
      have e3 := hg (non + noff - 1)
      have e4 := hg (non - 1)
      have c1 : ((non + noff - 1 : ℕ) : ℝ) + 1 = non + noff + 1 - 1 := by rw [Nat.cast_sub (by omega)]; push_cast; ring
      have c2 : ((non - 1 : ℕ) : ℝ) + 1 = non + 1 - 1 := by rw [Nat.cast_sub (by omega)]; push_cast; ring
      rw [c1] at e3
      rw [c2] at e4
      push_cast at e1
      rw [e1, e2, e3, e4]
      have hsum : ∑ k ∈ range (non + 1), (k : ℝ) * 0 ^ (k - 1) * (ton + toff) ^ k * (non - k + noff).factorial / ((non - k).factorial * k.factorial) =
          (ton + toff) * (non - 1 + noff).factorial / (non - 1).factorial := by
        rw [Finset.sum_eq_single 1]
        · simp
        · intro k _ hk
          rcases Nat.lt_or_ge 1 k with h | h
          · rw [zero_pow (by omega)]; simp
          · have : k = 0 := by omega
            subst this; simp
        · intro h; exact absurd (Finset.mem_range.2 (by omega)) h
      rw [hsum, hS1]
      have f1 : ((non + noff).factorial : ℝ) = (non + noff) * (non - 1 + noff).factorial := by
        rw [show non + noff = (non - 1 + noff) + 1 by omega, Nat.factorial_succ]
        push_cast [Nat.cast_sub (show 1 ≤ non by omega)]; ring
      have f2 : (non.factorial : ℝ) = non * (non - 1).factorial := by
        obtain ⟨m, rfl⟩ : ∃ m, non = m + 1 := ⟨non - 1, by omega⟩
        rw [Nat.factorial_succ]; push_cast; simp
      have p1 : (0 : ℝ) < (non + noff).factorial := by positivity
      have p2 : (0 : ℝ) < non.factorial := by positivity
      have p3 : (0 : ℝ) < (non + noff - 1).factorial := by positivity
      have p4 : (0 : ℝ) < (non - 1).factorial := by positivity
      have hρ : 0 < 1 + toff / ton := by positivity
      have hexp : Real.log (1 + toff / ton) + Real.log (non + noff - 1).factorial - Real.log (non - 1).factorial - offset -
          (Real.log (non + noff).factorial - Real.log non.factorial - offset) =
          Real.log (1 + toff / ton) + Real.log (non + noff - 1).factorial - Real.log (non - 1).factorial - Real.log (non + noff).factorial + Real.log non.factorial := by ring
      rw [hexp, Real.exp_add, Real.exp_sub, Real.exp_sub, Real.exp_add, Real.exp_log hρ, Real.exp_log p3, Real.exp_log p4, Real.exp_log p1, Real.exp_log p2]
      rw [show non + noff - 1 = non - 1 + noff by omega]
      field_simp
  · have hx : 0 < s * (ton + toff) := by positivity
    obtain ⟨m, hm', hp⟩ := kmIdx_peak hx non noff
    have hT := trm_pos hx non noff m
    set x := s * (ton + toff) with hxd
    set lt := lterm g s ton toff offset non noff m with hlt
    set A := Real.exp lt / trm x non noff m with hA
    have hA0 : 0 < A := by positivity
    have hAT : A * trm x non noff m = Real.exp lt := by rw [hA]; field_simp
    unfold slmliked at hok ⊢
    rw [if_neg hs'.ne', if_neg (by linarith)] at hok ⊢
    dsimp only at hok ⊢
    rw [← hxd, hm', ← hlt] at hok ⊢
    by_cases hb : lt < -700 ∨ lt > 700
    · rw [if_pos hb] at hok; simp at hok
    rw [if_neg hb]
    simp only [Int.toNat_natCast, zero_mul]
    rw [← hAT, downD_all hx non noff A s ton hA0 m _ _ _ hp.1]
    rw [upD_all hx non noff A s ton hA0 (non - m) m _ _ _ (by have := hp.1; omega)]
    dsimp only
    congr 1
    have split : ∀ f : ℕ → ℝ, ∑ k ∈ range (non + 1), f k = f m + ∑ k ∈ range m, f k + ∑ k ∈ Finset.Ico (m + 1) (non + 1), f k := by
      intro f
      have := hp.1
      rw [Finset.range_eq_Ico, ← Finset.sum_Ico_consecutive f (Nat.zero_le m) (by omega : m ≤ non + 1), Finset.sum_eq_sum_Ico_succ_bot (by omega : m < non + 1), Finset.range_eq_Ico]
      ring
    have e1 : A * trm x non noff m + A * ∑ i ∈ range m, trm x non noff i + A * ∑ i ∈ Finset.Ico (m + 1) (non + 1), trm x non noff i = A * S s := by
      simp only [hS]
      rw [split]; ring
    have e2 : A * trm x non noff m * (((m : ℤ) : ℝ) / s - ton) + A * ∑ i ∈ range m, trm x non noff i * (i / s - ton) +
        A * ∑ i ∈ Finset.Ico (m + 1) (non + 1), trm x non noff i * (i / s - ton) = A * ∑ k ∈ range (non + 1), trm x non noff k * (k / s - ton) := by
      rw [split]; push_cast; ring
    rw [e1, e2, mul_div_mul_left _ _ hA0.ne', div_eq_iff hS0.ne', sub_mul, div_mul_cancel₀ _ hS0.ne']
    simp only [hS]
    rw [Finset.mul_sum, ← Finset.sum_sub_distrib]
    refine Finset.sum_congr rfl fun k _ => ?_
    rcases Nat.eq_zero_or_pos k with rfl | hk
    · simp; ring
    · obtain ⟨j, rfl⟩ : ∃ j, k = j + 1 := ⟨k - 1, by omega⟩
      simp only [Nat.add_sub_cancel, trm]
      rw [mul_pow]
      field_simp
      ring

/-- **C83 fails without any counts**: at `s = 0` the derivative is not a number, although the likelihood has one. -/
theorem C83_violated {g : ℝ → ℝ} (ton toff offset cut : ℝ) : (slmliked g 0 0 ton 0 toff offset cut).dsll = none ∧ (slmliked g 0 0 ton 0 toff offset cut).ierr = 0 := by
  unfold slmliked
  rw [if_pos rfl]
  simp

example : ∃ d, (slmliked (fun x => Real.log (Real.Gamma x)) 0 16 2 9 3 0 0).dsll = some d ∧ HasDerivAt (fun s => Real.log (marg 16 2 9 3 s)) d 0 :=
  C83_derivative_partial (fun _ => exact_gamma) le_rfl (by norm_num) (by norm_num) 16 9 (fun _ => by norm_num) (by unfold slmliked; rw [if_pos rfl])

/-! ## C84 -/

theorem pnsig_eq {g : ℝ → ℝ} {onCts : ℕ} {onIntvl : ℝ} {offCts : ℕ} {offIntvl cutoff : ℝ} {o : Obj} (h : OReach g onCts onIntvl offCts offIntvl cutoff o) (n : Option ℤ) :
    (o.pnsig n).2 = ((Obj.new g onCts onIntvl offCts offIntvl cutoff).pnsig n).2 := by
  obtain ⟨a, b, -⟩ := h.fill_p
  obtain ⟨a', b', -⟩ := (OReach.new (g := g) (onCts := onCts) (onIntvl := onIntvl) (offCts := offCts) (offIntvl := offIntvl) (cutoff := cutoff)).fill_p
  unfold Obj.pnsig
  dsimp only
  rw [a, b, a', b']
  cases n with
  | none => rfl
  | some n => dsimp only; split_ifs <;> rfl

/-- **C84** (part).  As long as nothing is written into the arrays that were returned, the results of an object do not depend on the calls made before.
Missing: writes into returned arrays (`C84_violated`). -/
theorem C84_history_partial {g : ℝ → ℝ} {onCts : ℕ} {onIntvl : ℝ} {offCts : ℕ} {offIntvl cutoff : ℝ} {o o' : Obj} (h : OReach g onCts onIntvl offCts offIntvl cutoff o)
    (h' : OReach g onCts onIntvl offCts offIntvl cutoff o') (hg : Exact g) (h1 : 0 < onIntvl) (h2 : 0 < offIntvl) :
    (∀ n, (o.pnsig n).2 = (o'.pnsig n).2) ∧ (∀ s, o.siglml g s = o'.siglml g s) ∧
    (∀ t t' s, Reach g t → Reach g t' → 0 ≤ s → (o.sigmp g t s).2.2 = (o'.sigmp g t' s).2.2) := by
  refine ⟨fun n => by rw [pnsig_eq h, pnsig_eq h'], fun s => ?_, fun t t' s ht ht' hs => ?_⟩
  · obtain ⟨a1, a2, a3, a4, a5, a6, -⟩ := h.inv
    obtain ⟨b1, b2, b3, b4, b5, b6, -⟩ := h'.inv
    unfold Obj.siglml
    rw [a1, a2, a3, a4, a5, a6, b1, b2, b3, b4, b5, b6]
  · rw [(sigmp_val hg h1 h2 h ht hs).1, (sigmp_val hg h1 h2 h' ht' hs).1]

/-- **C84 is violated**: a caller who writes into the array that `pnsig()` returned changes the probabilities that later calls return. -/
theorem C84_violated {g : ℝ → ℝ} {onCts : ℕ} {onIntvl : ℝ} {offCts : ℕ} {offIntvl cutoff : ℝ} {o : Obj} (h : OReach g onCts onIntvl offCts offIntvl cutoff o) (hn : 1 ≤ onCts) (x : ℝ) :
    (((o.pnsig none).1.write 1 x).pnsig (some 1)).2 = .num x := by
  obtain ⟨a, b, -⟩ := h.fill_p
  have hl : (sigctp onCts onIntvl offCts offIntvl).length = onCts + 1 := by simp [sigctp, coeffsFrom]
  rw [pnsig_fst]
  have hw : (o.fill.write 1 x).fill = o.fill.write 1 x := by
    unfold Obj.write Obj.fill
    have := a
    revert this
    cases hp : o.p <;> simp [Obj.fill, hp]
  have hp : (o.fill.write 1 x).p = some ((sigctp onCts onIntvl offCts offIntvl).set 1 x) := by
    simp [Obj.write, a]
  have hc : (o.fill.write 1 x).onCts = onCts := b
  unfold Obj.pnsig
  dsimp only
  rw [hw, hp, hc, if_neg (by omega), if_neg (by omega)]
  simp [List.getElem?_set, hl, show 0 < onCts from hn]

/-! ## C85 -/

/-- **C85** (part).  For an array of floating point numbers of any length but one, `siglml` gives the array of the results for the single numbers, or raises the error of the first one that
raises; `sigmp` gives the array of the results for the single numbers.
Missing: integer arrays (`C85_violated`) and arrays of length one. -/
theorem C85_array_partial {g : ℝ → ℝ} (hg : Exact g) {onCts : ℕ} {onIntvl : ℝ} {offCts : ℕ} {offIntvl cutoff : ℝ} {o : Obj} (h : OReach g onCts onIntvl offCts offIntvl cutoff o)
    (h1 : 0 < onIntvl) (h2 : 0 < offIntvl) (ss : List ℝ) (hlen : ss.length ≠ 1) :
    (∀ ls, o.siglmlV g .float ss = .ok (.array ls) ↔ ls.length = ss.length ∧ ∀ (i : ℕ) (s : ℝ), ss[i]? = some s → ∃ l, ls[i]? = some l ∧ o.siglml g s = .ok l) ∧
    (∀ e, o.siglmlV g .float ss = .error e → ∃ s ∈ ss, o.siglml g s = .error e) ∧
    (∀ t, Reach g t → (∀ s ∈ ss, 0 ≤ s) → ∃ xs, (o.sigmpV g t .float ss).2.2 = .array xs ∧ xs.length = ss.length ∧
      ∀ (i : ℕ) (s : ℝ), ss[i]? = some s → ∀ t', Reach g t' → xs[i]? = some (o.sigmp g t' s).2.2) := by
  have hV : o.siglmlV g .float ss = (siglmlLoop g o .float ss).map .array := by
    match ss, hlen with
    | [], _ => rfl
    | _ :: _ :: _, _ => rfl
  have hW : ∀ t, (o.sigmpV g t .float ss).2.2 = .array (sigmpLoop g .float o.fill.onIntvl (o.fill.p.getD []) t ss).2 := by
    intro t
    match ss, hlen with
    | [], _ => rfl
    | _ :: _ :: _, _ => rfl
  rw [hV]
  have hstore : ∀ l : Option ℝ, l.map (store .float) = l := by intro l; cases l <;> rfl
  refine ⟨?_, ?_, ?_⟩
  · have : ∀ ss ls, siglmlLoop g o .float ss = .ok ls ↔ ls.length = ss.length ∧ ∀ (i : ℕ) (s : ℝ), ss[i]? = some s → ∃ l, ls[i]? = some l ∧ o.siglml g s = .ok l := by
      intro ss
      induction ss with
      | nil => intro ls; cases ls <;> simp [siglmlLoop]
      | cons s ss ih =>
        intro ls
        rw [siglmlLoop]
        constructor
        · intro h
          cases hl : o.siglml g s with
          | error e => rw [hl] at h; cases h
          | ok l =>
            rw [hl] at h
            dsimp only at h
            cases hr : siglmlLoop g o .float ss with
            | error e => rw [hr] at h; cases h
            | ok ls' =>
              rw [hr] at h
              simp only [Except.ok.injEq, hstore] at h
              subst h
              obtain ⟨a, b⟩ := (ih ls').1 hr
              refine ⟨by simp [a], ?_⟩
              intro i s' hs'
              cases i with
              | zero => simp at hs'; subst hs'; exact ⟨l, by simp, hl⟩
              | succ i => simp at hs' ⊢; exact b i s' hs'
        · rintro ⟨hlen, hall⟩
          cases ls with
          | nil => simp at hlen
          | cons l ls' =>
            obtain ⟨l0, e1, e2⟩ := hall 0 s (by simp)
            simp at e1; subst e1
            have : siglmlLoop g o .float ss = .ok ls' := (ih ls').2 ⟨by simpa using hlen, fun i s' hs' => by
              have := hall (i + 1) s' (by simpa using hs')
              simpa using this⟩
            rw [e2, this]
            simp only [hstore]
    intro ls
    rw [← this]
    cases siglmlLoop g o .float ss <;> simp [Except.map]
  · intro e he
    have : ∀ ss, siglmlLoop g o .float ss = .error e → ∃ s ∈ ss, o.siglml g s = .error e := by
      intro ss
      induction ss with
      | nil => intro h; cases h
      | cons s ss ih =>
        intro h
        rw [siglmlLoop] at h
        cases hl : o.siglml g s with
        | error e' => rw [hl] at h; simp at h; subst h; exact ⟨s, by simp, hl⟩
        | ok l =>
          rw [hl] at h
          dsimp only at h
          cases hr : siglmlLoop g o .float ss with
          | error e' =>
            rw [hr] at h
            simp at h; subst h
            obtain ⟨s', hs', h'⟩ := ih hr
            exact ⟨s', by simp [hs'], h'⟩
          | ok ls => rw [hr] at h; cases h
    apply this
    revert he
    cases siglmlLoop g o .float ss <;> simp [Except.map]
  · intro t ht hpos
    rw [hW]
    refine ⟨_, rfl, ?_⟩
    have key : ∀ (ss : List ℝ) (t : Table), Reach g t → (∀ s ∈ ss, 0 ≤ s) → (sigmpLoop g .float o.fill.onIntvl (o.fill.p.getD []) t ss).2.length = ss.length ∧
        ∀ (i : ℕ) (s : ℝ), ss[i]? = some s → ∀ t', Reach g t' → (sigmpLoop g .float o.fill.onIntvl (o.fill.p.getD []) t ss).2[i]? = some (o.sigmp g t' s).2.2 := by
      intro ss
      induction ss with
      | nil => intro t _ _; simp [sigmpLoop]
      | cons s ss ih =>
        intro t ht hpos
        obtain ⟨hv, hr⟩ := sigmp_val hg h1 h2 h ht (hpos s (by simp))
        obtain ⟨a, b⟩ := ih _ hr (fun s' hs' => hpos s' (by simp [hs']))
        rw [sigmpLoop]
        refine ⟨congrArg Nat.succ a, ?_⟩
        intro i s' hs' t' ht'
        cases i with
        | zero =>
          simp at hs'; subst hs'
          have := (sigmp_val hg h1 h2 h ht' (hpos s (by simp))).1
          simp only [List.getElem?_cons_zero, store]
          rw [this, ← hv]
          rfl
        | succ i =>
          simp only [List.getElem?_cons_succ] at hs' ⊢
          exact b i s' hs' t' ht'
    exact key ss t ht hpos

/-- **C85 is violated by arrays of integers**: the results are stored in an array of integers, so they are truncated: two results between 0 and 1 become zeros. -/
theorem C85_violated {g : ℝ → ℝ} (hg : Exact g) : ∃ (o : Obj) (t : Table), OReach g 0 1 0 1 0 o ∧ Reach g t ∧
    (o.sigmpV g t .int [1, 2]).2.2 = .array [0, 0] ∧ 0 < (o.sigmp g t 1).2.2 ∧ 0 < (o.sigmp g t 2).2.2 := by
  have ho : OReach g 0 1 0 1 0 (Obj.new g 0 1 0 1 0) := .new
  have ht : Reach g (Table.init fun _ => 0) := .init _
  obtain ⟨v1, r1⟩ := sigmp_val hg one_pos one_pos ho ht (s := 1) (by norm_num)
  obtain ⟨v2, -⟩ := sigmp_val hg one_pos one_pos ho r1 (s := 2) (by norm_num)
  refine ⟨_, _, ho, ht, ?_, (C82_posterior hg one_pos one_pos ho ht (by norm_num)).2.1, (C82_posterior hg one_pos one_pos ho ht (by norm_num)).2.1⟩
  have tr : ∀ y : ℝ, 0 < y → trunc (Real.exp (-y)) = 0 := by
    intro y hy
    unfold trunc
    rw [if_pos (Real.exp_pos _).le, Int.floor_eq_zero_iff]
    exact ⟨(Real.exp_pos _).le, by rw [Real.exp_lt_one_iff]; linarith⟩
  have w : wgt (1 + 1) 0 0 0 = 1 := by simp [wgt]
  simp only [zero_add, Finset.sum_range_one, div_one, w, pois, pow_zero, one_mul, mul_one, Nat.factorial_zero, Nat.cast_one] at v1 v2
  have e1 : (psigc g (Table.init fun _ => 0) 1 (Obj.new g 0 1 0 1 0).fill.onIntvl ((Obj.new g 0 1 0 1 0).fill.p.getD [])).2 = Real.exp (-1) := v1
  have e2 : (psigc g (psigc g (Table.init fun _ => 0) 1 (Obj.new g 0 1 0 1 0).fill.onIntvl ((Obj.new g 0 1 0 1 0).fill.p.getD [])).1 2 (Obj.new g 0 1 0 1 0).fill.onIntvl
    ((Obj.new g 0 1 0 1 0).fill.p.getD [])).2 = Real.exp (-2) := v2
  simp only [Obj.sigmpV, sigmpLoop, store]
  rw [e1, e2, tr 1 one_pos, tr 2 two_pos]
  simp

end Verif.OnOff
