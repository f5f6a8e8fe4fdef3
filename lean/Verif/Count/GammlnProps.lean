import Verif.Count.GammlnReal
import Verif.Count.MargProps

/-!
# C107: the counting code with its own log gamma function

The properties of the other files about `_cbmlike.f` and `OnOff` are stated for a log gamma function that is exact at the integers.  Here it is the one in the file, `gammln`.
-/

set_option linter.unusedSectionVars false

open Finset MeasureTheory

namespace Verif.OnOff

/-- Specification: a log gamma function whose error is at most `ε` at every positive integer. -/
def Near (ε : ℝ) (g : ℝ → ℝ) : Prop := ∀ m : ℕ, |g (m + 1) - Real.log m.factorial| ≤ ε

/-- **C107** (log gamma).  The log gamma function of the file is within `3 · 10⁻¹⁰` of `log n!` at `n + 1`, for every `n`. -/
theorem C107_gammln : Near (3 / 10 ^ 10) gammln := Lz.gammln_err

example : |gammln (((10 ^ 100 : ℕ) : ℝ) + 1) - Real.log ((10 ^ 100).factorial : ℕ)| ≤ 3 / 10 ^ 10 := C107_gammln _

/-- C107, `gammln` itself: it is within 3e-10 of the log gamma function at every real argument from 1 on. -/
theorem C107_gammln_real (x : ℝ) (hx : 1 ≤ x) : |gammln x - Real.log (Real.Gamma x)| ≤ 3 / 10 ^ 10 := Lz.gammln_err_real hx

example : (1 : ℝ) ≤ 65 / 2 := by norm_num

theorem near_lterm {g : ℝ → ℝ} {ε : ℝ} (hg : Near ε g) {s ton toff offset : ℝ} (hx : 0 < s * (ton + toff)) {non noff m : ℕ} (hm : m ≤ non) :
    |lterm g s ton toff offset non noff m - (Real.log (trm (s * (ton + toff)) non noff m) + (-(s * ton) - offset))| ≤ 3 * ε := by
  have a := abs_le.mp (hg (non - m + noff))
  have b := abs_le.mp (hg (non - m))
  have c := abs_le.mp (hg m)
  rw [show (((non - m + noff : ℕ) : ℝ) + 1) = (non : ℝ) - (m : ℤ) + 1 + noff by push_cast [Nat.cast_sub hm]; ring] at a
  rw [show (((non - m : ℕ) : ℝ) + 1) = (non : ℝ) - (m : ℤ) + 1 by push_cast [Nat.cast_sub hm]; ring] at b
  rw [show ((m : ℝ) + 1) = ((m : ℤ) : ℝ) + 1 by push_cast; ring] at c
  rw [lterm, log_trm hx, abs_le]
  have e : (((m : ℤ) : ℝ)) * Real.log (s * (ton + toff)) = (m : ℝ) * Real.log (s * (ton + toff)) := by push_cast; ring
  rw [e]
  constructor <;> linarith

theorem exp_bounds {a b δ : ℝ} (h : |a - b| ≤ δ) : Real.exp a ≤ Real.exp δ * Real.exp b ∧ Real.exp b ≤ Real.exp δ * Real.exp a := by
  rw [abs_le] at h
  rw [← Real.exp_add, ← Real.exp_add]
  exact ⟨Real.exp_le_exp.mpr (by linarith), Real.exp_le_exp.mpr (by linarith)⟩

theorem slmlike_near {g : ℝ → ℝ} {ε : ℝ} (hg : Near ε g) (hε : 0 ≤ ε) {ton toff cut off : ℝ} (h1 : 0 < ton) (h2 : 0 < toff) (hc : 0 ≤ cut) (non noff : ℕ) {s : ℝ} (hs : 0 ≤ s)
    (hok : (slmlike g s non ton noff toff off cut).ierr = 0) :
    ∃ l, (slmlike g s non ton noff toff off cut).ll = some l ∧
    let full := Real.exp (-(s * ton) - off) * ∑ k ∈ range (non + 1), trm (s * (ton + toff)) non noff k
    Real.exp l ≤ Real.exp (3 * ε) * full ∧ full ≤ Real.exp (3 * ε) * ((1 + non * cut) * Real.exp l) := by
  have hnc : (0 : ℝ) ≤ non * cut := by positivity
  rcases hs.eq_or_lt with rfl | hs'
  · have hll : (slmlike g 0 non ton noff toff off cut).ll = some (g (non + noff + 1) - g (non + 1) - off) := by simp [slmlike]
    refine ⟨_, hll, ?_⟩
    have hS : ∑ k ∈ range (non + 1), trm (0 * (ton + toff)) non noff k = (non + noff).factorial / non.factorial := by
      rw [Finset.sum_range_succ', Finset.sum_eq_zero]
      · simp [trm]
      · intro k _; simp [trm]
    have a : ((non + noff).factorial : ℝ) ≠ 0 := by positivity
    have b : (non.factorial : ℝ) ≠ 0 := by positivity
    have hfull : Real.exp (-(0 * ton) - off) * ∑ k ∈ range (non + 1), trm (0 * (ton + toff)) non noff k =
        Real.exp (Real.log (non + noff).factorial - Real.log non.factorial - off) := by
      rw [hS, ← Real.log_div a b, sub_eq_add_neg (Real.log _), Real.exp_add, Real.exp_log (by positivity)]
      simp; ring
    dsimp only
    rw [hfull]
    have n1 := abs_le.mp (hg (non + noff))
    have n2 := abs_le.mp (hg non)
    push_cast at n1
    have h : |g (non + noff + 1) - g (non + 1) - off - (Real.log (non + noff).factorial - Real.log non.factorial - off)| ≤ 3 * ε := by
      rw [abs_le]; constructor <;> linarith
    obtain ⟨u, v⟩ := exp_bounds h
    refine ⟨u, v.trans (mul_le_mul_of_nonneg_left ?_ (Real.exp_pos _).le)⟩
    nlinarith [Real.exp_pos (g (non + noff + 1) - g (non + 1) - off)]
  · have hx : 0 < s * (ton + toff) := by positivity
    obtain ⟨m, lo, hi, A, hA0, hAT, hmn, hmax, hlo, hhi, hhn, hout, herr, hr⟩ := series_scale (g := g) (offset := off) hs' h1 h2 hc non noff
    have hb : ¬ (Real.log (A * trm (s * (ton + toff)) non noff m) < -700 ∨ 700 < Real.log (A * trm (s * (ton + toff)) non noff m)) := by
      intro hb
      have := (herr hb).1
      omega
    push Not at hb
    obtain ⟨-, -, hll⟩ := hr hb
    refine ⟨_, hll, ?_⟩
    set T := trm (s * (ton + toff)) non noff with hT
    have hTp : ∀ i, 0 < T i := fun i => trm_pos hx non noff i
    have hS : 0 < ∑ k ∈ Ico lo (hi + 1), T k := sum_pos (fun i _ => hTp i) ⟨m, by simp; omega⟩
    have hA : A ≤ Real.exp (3 * ε) * Real.exp (-(s * ton) - off) ∧ Real.exp (-(s * ton) - off) ≤ Real.exp (3 * ε) * A := by
      obtain ⟨u, v⟩ := exp_bounds (near_lterm hg (offset := off) hx (noff := noff) hmn)
      rw [← hAT, Real.exp_add, Real.exp_log (hTp m)] at u v
      constructor
      · refine le_of_mul_le_mul_right (a := T m) ?_ (hTp m)
        calc A * T m ≤ _ := u
          _ = _ := by ring
      · refine le_of_mul_le_mul_left (a := T m) ?_ (hTp m)
        calc _ ≤ _ := v
          _ = _ := by ring
    rw [Real.exp_log (mul_pos hA0 hS)]
    have hsub : Ico lo (hi + 1) ⊆ range (non + 1) := by
      intro k hk; rw [mem_Ico] at hk; rw [mem_range]; omega
    have hsplit := Finset.sum_sdiff (f := T) hsub
    have hm : T m ≤ ∑ k ∈ Ico lo (hi + 1), T k := Finset.single_le_sum (fun i _ => (hTp i).le) (by rw [mem_Ico]; omega)
    have hrest : ∑ k ∈ range (non + 1) \ Ico lo (hi + 1), T k ≤ non * (cut * T m) := by
      have hb' : ∀ k ∈ range (non + 1) \ Ico lo (hi + 1), T k ≤ cut * T m := by
        intro k hk
        rw [mem_sdiff, mem_range, mem_Ico] at hk
        exact hout k (by omega) (by omega)
      refine le_trans (Finset.sum_le_card_nsmul _ _ _ hb') ?_
      rw [nsmul_eq_mul]
      apply mul_le_mul_of_nonneg_right _ (mul_nonneg hc (hTp m).le)
      have : (range (non + 1) \ Ico lo (hi + 1)).card ≤ non := by
        rw [Finset.card_sdiff_of_subset hsub, card_range, Nat.card_Ico]; omega
      exact_mod_cast this
    have hrest0 : 0 ≤ ∑ k ∈ range (non + 1) \ Ico lo (hi + 1), T k := Finset.sum_nonneg fun i _ => (hTp i).le
    have hE := Real.exp_pos (3 * ε)
    set S := ∑ k ∈ Ico lo (hi + 1), T k
    set F := ∑ k ∈ range (non + 1), T k
    have f1 : S ≤ F := by linarith
    have f2 : F ≤ (1 + non * cut) * S := by
      have : non * (cut * T m) ≤ non * cut * S := by rw [← mul_assoc]; exact mul_le_mul_of_nonneg_left hm hnc
      linarith
    constructor
    · calc A * S ≤ (Real.exp (3 * ε) * Real.exp (-(s * ton) - off)) * F := mul_le_mul hA.1 f1 hS.le (by positivity)
        _ = _ := by ring
    · calc Real.exp (-(s * ton) - off) * F ≤ (Real.exp (3 * ε) * A) * ((1 + non * cut) * S) := mul_le_mul hA.2 f2 (hS.le.trans f1) (by positivity)
        _ = _ := by ring

theorem slmlOffset_some {g : ℝ → ℝ} {ton toff : ℝ} (h1 : 0 < ton) (h2 : 0 < toff) (non noff : ℕ) : ∃ off, slmlOffset g non ton noff toff = some off := by
  obtain ⟨off, h⟩ : ∃ off, slmlOffset (fun x => Real.log (Real.Gamma x)) non ton noff toff = some off := by
    rcases le_or_gt ((non : ℝ) / ton - noff / toff) 0 with h | h
    · exact ⟨_, (C61_offset exact_gamma h1 h2 non noff _ rfl).1 h⟩
    · obtain ⟨m, -, -, hm⟩ := (C61_offset exact_gamma h1 h2 non noff _ rfl).2 h
      exact ⟨_, hm⟩
  unfold slmlOffset at h ⊢
  dsimp only at h ⊢
  split_ifs at h ⊢ <;> exact ⟨_, rfl⟩

theorem exp_small {δ : ℝ} (h0 : 0 ≤ δ) (h : δ ≤ 1 / 10) : Real.exp δ ≤ 1 + 11 / 10 * δ := by
  have := Real.abs_exp_sub_one_sub_id_le (x := δ) (by rw [abs_of_nonneg h0]; linarith)
  have := (abs_le.mp this).2
  nlinarith

/-- **C107** (`siglml`).  With the log gamma function of the file the statement about `siglml` holds up to one part in 10⁹: there is a constant that depends only on the data such that, for every
object with these data, in every state and for every signal rate that is not negative, either a ValueError is raised or the result is a number and its exponential, times the constant, is at
most `1 + 10⁻⁹` times the marginal likelihood, and at least the marginal likelihood divided by `(1 + 10⁻⁹)(1 + on_cts cutoff)`. -/
theorem C107_siglml {ton toff : ℝ} (h1 : 0 < ton) (h2 : 0 < toff) (non noff : ℕ) :
    ∃ D > 0, ∀ {cut : ℝ} (_ : 0 ≤ cut) {o : Obj} (_ : OReach gammln non ton noff toff cut o) {s : ℝ} (_ : 0 ≤ s),
      o.siglml gammln s = .error .value ∨
      ∃ l, o.siglml gammln s = .ok (some l) ∧ D * Real.exp l ≤ (1 + 1 / 10 ^ 9) * marg non ton noff toff s ∧
        marg non ton noff toff s ≤ (1 + 1 / 10 ^ 9) * ((1 + non * cut) * (D * Real.exp l)) := by
  obtain ⟨off, hoff⟩ := slmlOffset_some (g := gammln) h1 h2 non noff
  refine ⟨ton ^ non * toff ^ noff / ((ton + toff) ^ (non + noff + 1) * noff.factorial) * Real.exp off, by positivity, ?_⟩
  intro cut hc o ho s hs
  obtain ⟨e1, e2, e3, e4, e5, e6, -⟩ := ho.inv
  unfold Obj.siglml
  rw [e6, hoff, e1, e2, e3, e4, e5]
  dsimp only
  by_cases hierr : (slmlike gammln s non ton noff toff off cut).ierr ≠ 0
  · left; rw [if_pos hierr]
  · right
    rw [if_neg hierr]
    push Not at hierr
    obtain ⟨l, hl, b1, b2⟩ := slmlike_near C107_gammln (by norm_num) h1 h2 hc non noff hs hierr
    have hE := exp_small (δ := 3 * (3 / 10 ^ 10)) (by norm_num) (by norm_num)
    have hE' : Real.exp (3 * (3 / 10 ^ 10)) ≤ 1 + 1 / 10 ^ 9 := hE.trans (by norm_num)
    have hm := marg_pos h1 h2 non noff hs
    have hme : marg non ton noff toff s = (ton ^ non * toff ^ noff / ((ton + toff) ^ (non + noff + 1) * noff.factorial) * Real.exp off) *
        (Real.exp (-(s * ton) - off) * ∑ k ∈ range (non + 1), trm (s * (ton + toff)) non noff k) := by
      rw [marg_eq h1 h2, sub_eq_add_neg, Real.exp_add, Real.exp_neg off]
      have := (Real.exp_pos off).ne'
      field_simp
    set D := ton ^ non * toff ^ noff / ((ton + toff) ^ (non + noff + 1) * noff.factorial) * Real.exp off
    have hD : 0 < D := by positivity
    refine ⟨l, by rw [hl], ?_, ?_⟩
    · calc D * Real.exp l ≤ D * (Real.exp (3 * (3 / 10 ^ 10)) * (Real.exp (-(s * ton) - off) * ∑ k ∈ range (non + 1), trm (s * (ton + toff)) non noff k)) :=
            mul_le_mul_of_nonneg_left b1 hD.le
        _ = Real.exp (3 * (3 / 10 ^ 10)) * marg non ton noff toff s := by rw [hme]; ring
        _ ≤ _ := mul_le_mul_of_nonneg_right hE' hm.le
    · calc marg non ton noff toff s ≤ D * (Real.exp (3 * (3 / 10 ^ 10)) * ((1 + non * cut) * Real.exp l)) := by rw [hme]; exact mul_le_mul_of_nonneg_left b2 hD.le
        _ = Real.exp (3 * (3 / 10 ^ 10)) * ((1 + non * cut) * (D * Real.exp l)) := by ring
        _ ≤ _ := mul_le_mul_of_nonneg_right hE' (by positivity)

/-- A case without an error: no counts, unit intervals, a signal rate of zero. -/
example : ∃ l, (Obj.new gammln 0 1 0 1 0).siglml gammln 0 = .ok (some l) := by
  obtain ⟨D, hD, h⟩ := C107_siglml (ton := 1) (toff := 1) one_pos one_pos 0 0
  rcases h le_rfl (.new : OReach gammln 0 1 0 1 0 _) le_rfl with h | ⟨l, h, -⟩
  · exfalso
    obtain ⟨off, hoff⟩ := slmlOffset_some (g := gammln) (ton := 1) (toff := 1) one_pos one_pos 0 0
    simp [Obj.siglml, Obj.new, hoff, slmlike] at h
  · exact ⟨l, h⟩

/-- **C107** (Poisson probabilities).  `ppois` is within four parts in 10¹⁰ of the Poisson probability for every count and every mean that is not negative, in every state of its table. -/
theorem C107_ppois {t : Table} (h : Reach gammln t) (n : ℕ) {dm : ℝ} (hm : 0 ≤ dm) :
    |(ppois gammln t n dm).2 - dm ^ n * Real.exp (-dm) / n.factorial| ≤ 4 / 10 ^ 10 * (dm ^ n * Real.exp (-dm) / n.factorial) := by
  rw [C62_ppois h]
  split_ifs with hc
  · rw [sub_self, abs_zero]; positivity
  · push Not at hc
    have hd : 0 < dm := lt_of_le_of_ne hm (Ne.symm hc.2)
    have hp := poisson_exp hd (n := n)
    obtain ⟨u, v⟩ := exp_bounds (δ := 3 / 10 ^ 10) (a := n * Real.log dm - dm - gammln (n + 1)) (b := n * Real.log dm - dm - Real.log n.factorial) (by
      have := abs_le.mp (C107_gammln n)
      rw [abs_le]; constructor <;> linarith)
    rw [hp] at u v
    have hE : Real.exp (3 / 10 ^ 10) ≤ 1 + 4 / 10 ^ 10 := (exp_small (by norm_num) (by norm_num)).trans (by norm_num)
    have hP : 0 < dm ^ n * Real.exp (-dm) / n.factorial := by positivity
    set P := dm ^ n * Real.exp (-dm) / n.factorial
    set Q := Real.exp (n * Real.log dm - dm - gammln (n + 1))
    have hQ : 0 < Q := Real.exp_pos _
    rw [abs_le]
    constructor
    · by_contra hc'
      push Not at hc'
      have : Real.exp (3 / 10 ^ 10) * Q ≤ (1 + 4 / 10 ^ 10) * Q := mul_le_mul_of_nonneg_right hE hQ.le
      nlinarith
    · nlinarith

example : |(ppois gammln (Table.init fun _ => 7) 40 30).2 - 30 ^ 40 * Real.exp (-30) / (40).factorial| ≤ 4 / 10 ^ 10 * (30 ^ 40 * Real.exp (-30) / (40).factorial) := by
  exact_mod_cast C107_ppois (.init _) 40 (show (0 : ℝ) ≤ 30 by norm_num)

/-- What `ppois` returns: `C62_ppois`. -/
noncomputable def pq (n : ℕ) (dm : ℝ) : ℝ := if n ≤ 32 ∨ dm = 0 then dm ^ n * Real.exp (-dm) / n.factorial else Real.exp (n * Real.log dm - dm - gammln (n + 1))

theorem psigcLoop_pq (ton st : ℝ) (f : ℕ → ℝ) : ∀ (n i : ℕ) (t : Table) (p : ℝ), Reach gammln t →
    (psigcLoop gammln ton st t i p ((List.range' i n).map f)).2 = p + ∑ j ∈ Finset.Ico i (i + n), f j * ton * pq j st ∧
    Reach gammln (psigcLoop gammln ton st t i p ((List.range' i n).map f)).1 := by
  intro n
  induction n with
  | zero => intro i t p h; simp [psigcLoop, h]
  | succ n ih =>
    intro i t p h
    rw [List.range'_succ, List.map_cons, psigcLoop]
    obtain ⟨h1, h2⟩ := ih (i + 1) _ (p + f i * ton * (ppois gammln t i st).2) (.call t i st h)
    refine ⟨?_, h2⟩
    rw [h1, Finset.sum_eq_sum_Ico_succ_bot (by omega : i < i + (n + 1)), C62_ppois h i st, ← pq, show i + 1 + n = i + (n + 1) by omega]
    ring

theorem pq_near (n : ℕ) {dm : ℝ} (hm : 0 ≤ dm) : |pq n dm - pois n dm| ≤ 4 / 10 ^ 10 * pois n dm := by
  have := C107_ppois (t := Table.init fun _ => 0) (.init _) n hm
  rwa [C62_ppois (.init _)] at this

theorem sigmp_pq {ton toff : ℝ} (h1 : 0 < ton) (h2 : 0 < toff) {non noff : ℕ} {cut : ℝ} {o : Obj} (ho : OReach gammln non ton noff toff cut o) {t : Table}
    (ht : Reach gammln t) (s : ℝ) :
    (o.sigmp gammln t s).2.2 = ∑ i ∈ range (non + 1), wgt (1 + toff / ton) non noff i / (∑ j ∈ range (non + 1), wgt (1 + toff / ton) non noff j) * ton * pq i (s * ton) ∧
    Reach gammln (o.sigmp gammln t s).1 := by
  obtain ⟨hp, -, hi⟩ := ho.fill_p
  unfold Obj.sigmp psigc
  dsimp only
  rw [hp, hi, Option.getD_some, sigctp, coeffsFrom_eq h1 h2 non noff _ (startIdx_le non ton noff toff), List.range_eq_range']
  have := psigcLoop_pq ton (s * ton) (fun i => wgt (1 + toff / ton) non noff i / ∑ j ∈ range (non + 1), wgt (1 + toff / ton) non noff j) (non + 1) 0 t 0 ht
  refine ⟨?_, this.2⟩
  rw [this.1, zero_add, zero_add, Nat.Ico_zero_eq_range]

/-- **C107** (`sigmp`).  With the log gamma function of the file, `sigmp` is within four parts in 10¹⁰ of the posterior density of the signal rate (the marginal likelihood divided by its
integral), for every signal rate that is not negative and in every state of the object and of the factorial table. -/
theorem C107_sigmp {ton toff : ℝ} (h1 : 0 < ton) (h2 : 0 < toff) {non noff : ℕ} {cut : ℝ} {o : Obj} (ho : OReach gammln non ton noff toff cut o) {t : Table}
    (ht : Reach gammln t) {s : ℝ} (hs : 0 ≤ s) :
    let post := marg non ton noff toff s / ∫ s' in Set.Ioi (0 : ℝ), marg non ton noff toff s'
    |(o.sigmp gammln t s).2.2 - post| ≤ 4 / 10 ^ 10 * post ∧ 0 < post ∧ Reach gammln (o.sigmp gammln t s).1 := by
  have hρ : 0 < 1 + toff / ton := by positivity
  have hW0 : 0 < ∑ j ∈ range (non + 1), wgt (1 + toff / ton) non noff j := Finset.sum_pos (fun i _ => wgt_pos hρ _ _ _) (by simp)
  obtain ⟨p1, p2, -⟩ := C82_posterior exact_gamma h1 h2 (.new : OReach (fun x => Real.log (Real.Gamma x)) non ton noff toff cut _) (.init fun _ => 0) hs
  have p3 := (sigmp_val exact_gamma h1 h2 (.new : OReach (fun x => Real.log (Real.Gamma x)) non ton noff toff cut _) (.init fun _ => 0) hs).1
  obtain ⟨q1, q2⟩ := sigmp_pq h1 h2 ho ht s
  dsimp only
  rw [← p1]
  refine ⟨?_, p2, q2⟩
  rw [p3, q1, ← Finset.sum_sub_distrib, Finset.mul_sum]
  refine (Finset.abs_sum_le_sum_abs _ _).trans (Finset.sum_le_sum fun i _ => ?_)
  have hw := wgt_pos hρ non noff i
  rw [← mul_sub, abs_mul, abs_of_pos (by positivity)]
  calc _ ≤ wgt (1 + toff / ton) non noff i / (∑ j ∈ range (non + 1), wgt (1 + toff / ton) non noff j) * ton * (4 / 10 ^ 10 * pois i (s * ton)) :=
        mul_le_mul_of_nonneg_left (pq_near i (by positivity)) (by positivity)
    _ = _ := by ring

/-- **C107** (normalisation).  The function `sigmp` integrates to one, within four parts in 10¹⁰. -/
theorem C107_normalised {ton toff : ℝ} (h1 : 0 < ton) (h2 : 0 < toff) {non noff : ℕ} {cut : ℝ} {o : Obj} (ho : OReach gammln non ton noff toff cut o) {t : Table}
    (ht : Reach gammln t) : IntegrableOn (fun s => (o.sigmp gammln t s).2.2) (Set.Ioi 0) ∧ |(∫ s in Set.Ioi (0 : ℝ), (o.sigmp gammln t s).2.2) - 1| ≤ 4 / 10 ^ 10 := by
  have hn : ∫ s in Set.Ioi (0 : ℝ), marg non ton noff toff s / ∫ s' in Set.Ioi (0 : ℝ), marg non ton noff toff s' = 1 := by
    rw [← C82_normalised exact_gamma h1 h2 (.new : OReach (fun x => Real.log (Real.Gamma x)) non ton noff toff cut _) (.init fun _ => 0)]
    refine setIntegral_congr_fun measurableSet_Ioi fun s hs => ?_
    exact (C82_posterior exact_gamma h1 h2 (.new : OReach (fun x => Real.log (Real.Gamma x)) non ton noff toff cut _) (.init fun _ => 0) (le_of_lt hs)).1.symm
  set post := fun s : ℝ => marg non ton noff toff s / ∫ s' in Set.Ioi (0 : ℝ), marg non ton noff toff s' with hpost
  have hi : IntegrableOn post (Set.Ioi 0) := by
    by_contra hc
    have : ∫ s in Set.Ioi (0 : ℝ), post s = 0 := integral_undef hc
    rw [this] at hn
    norm_num at hn
  have hb : ∀ s ∈ Set.Ioi (0 : ℝ), |(o.sigmp gammln t s).2.2 - post s| ≤ 4 / 10 ^ 10 * post s ∧ 0 < post s := fun s hs => by
    obtain ⟨a, b, -⟩ := C107_sigmp h1 h2 ho ht (le_of_lt hs)
    exact ⟨a, b⟩
  have hm : AEStronglyMeasurable (fun s => (o.sigmp gammln t s).2.2) (volume.restrict (Set.Ioi 0)) := by
    have hc : ContinuousOn (fun s => (o.sigmp gammln t s).2.2) (Set.Ioi 0) := by
      simp only [fun s => (sigmp_pq h1 h2 ho ht s).1]
      refine continuousOn_finsetSum _ fun i _ => ContinuousOn.mul continuousOn_const ?_
      have hne : ∀ s ∈ Set.Ioi (0 : ℝ), s * ton ≠ 0 := fun s hs => (mul_pos hs h1).ne'
      by_cases h3 : i ≤ 32
      · refine ContinuousOn.congr (f := fun s => (s * ton) ^ i * Real.exp (-(s * ton)) / i.factorial) (by fun_prop) fun s _ => ?_
        simp [pq, h3]
      · refine ContinuousOn.congr (f := fun s => Real.exp (i * Real.log (s * ton) - s * ton - gammln (i + 1))) ?_ fun s hs => ?_
        · refine Real.continuous_exp.comp_continuousOn ?_
          exact ((continuousOn_const.mul ((by fun_prop : ContinuousOn (fun s : ℝ => s * ton) (Set.Ioi 0)).log hne)).sub (by fun_prop)).sub continuousOn_const
        · rw [pq, if_neg (by push Not; exact ⟨by omega, hne s hs⟩)]
    exact hc.aestronglyMeasurable measurableSet_Ioi
  have hint : IntegrableOn (fun s => (o.sigmp gammln t s).2.2) (Set.Ioi 0) := by
    refine Integrable.mono' (hi.const_mul 2) hm ?_
    rw [ae_restrict_iff' measurableSet_Ioi]
    refine Filter.Eventually.of_forall fun s hs => ?_
    obtain ⟨a, b⟩ := hb s hs
    rw [Real.norm_eq_abs, abs_le]
    rw [abs_le] at a
    constructor <;> nlinarith
  refine ⟨hint, ?_⟩
  rw [← hn, ← integral_sub hint hi]
  calc _ ≤ ∫ s in Set.Ioi (0 : ℝ), |(o.sigmp gammln t s).2.2 - post s| := abs_integral_le_integral_abs
    _ ≤ ∫ s in Set.Ioi (0 : ℝ), 4 / 10 ^ 10 * post s := setIntegral_mono_on (hint.sub hi).abs (hi.const_mul _) measurableSet_Ioi fun s hs => (hb s hs).1
    _ = _ := by rw [integral_const_mul, hn, mul_one]

example : |(∫ s in Set.Ioi (0 : ℝ), ((Obj.new gammln 160 2 9 3 0).sigmp gammln (Table.init fun _ => 0) s).2.2) - 1| ≤ 4 / 10 ^ 10 :=
  (C107_normalised (by norm_num) (by norm_num) .new (.init _)).2

/-- **C107** (derivative).  For a positive signal rate and no cutoff the errors of the log gamma function cancel: what `slmliked` returns as the derivative is that of the logarithm of the
marginal likelihood, exactly. -/
theorem C107_derivative {s ton toff offset : ℝ} (hs : 0 < s) (h1 : 0 < ton) (h2 : 0 < toff) (non noff : ℕ) (hok : (slmliked gammln s non ton noff toff offset 0).ierr = 0) :
    ∃ d, (slmliked gammln s non ton noff toff offset 0).dsll = some d ∧ HasDerivAt (fun s => Real.log (marg non ton noff toff s)) d s :=
  C83_derivative_partial (fun h => absurd h hs.ne') hs.le h1 h2 non noff (fun h => absurd h hs.ne') hok

/-- A case without an error: no counts, unit intervals and an offset of zero. -/
example : ∃ d, (slmliked gammln 1 0 1 0 1 0 0).dsll = some d ∧ HasDerivAt (fun s => Real.log (marg 0 1 0 1 s)) d 1 := by
  refine C107_derivative one_pos one_pos one_pos 0 0 ?_
  obtain ⟨m, hm, hp⟩ := kmIdx_peak (x := 1 * (1 + 1)) (by norm_num) 0 0
  have hm0 : m = 0 := by have := hp.1; omega
  subst hm0
  have n := near_lterm C107_gammln (s := 1) (ton := 1) (toff := 1) (offset := 0) (by norm_num) (noff := 0) (m := 0) (non := 0) le_rfl
  simp only [trm, pow_zero, Nat.sub_self, Nat.add_zero, Nat.factorial_zero, Nat.cast_one, mul_one, div_one, Real.log_one] at n
  rw [abs_le] at n
  unfold slmliked
  rw [if_neg one_ne_zero, if_neg (by norm_num)]
  dsimp only
  rw [hm, if_neg]
  push Not
  norm_num at n ⊢
  constructor <;> linarith

end Verif.OnOff
