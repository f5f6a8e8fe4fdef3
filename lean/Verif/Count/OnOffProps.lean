import Verif.Count.OnOffLemmas
import Mathlib.Analysis.SpecialFunctions.Gamma.Basic
import Mathlib.Analysis.SpecialFunctions.Gaussian.GaussianIntegral
import Mathlib.Analysis.SpecialFunctions.Log.Deriv
import Mathlib.Analysis.Calculus.Deriv.Pow
import Mathlib.MeasureTheory.Integral.Bochner.Basic
import Mathlib.Data.Nat.Choose.Sum

/-!
# Counting with a constant background: C59 to C63
-/

set_option linter.unusedSectionVars false
set_option linter.unusedSimpArgs false

namespace Verif.OnOff

open Finset MeasureTheory

/-- The log gamma function in use is exact on the positive integers. -/
def Exact (g : ℝ → ℝ) : Prop := ∀ m : ℕ, g (m + 1) = Real.log m.factorial

/-- The logarithm of the gamma function is. -/
theorem exact_gamma : Exact fun x => Real.log (Real.Gamma x) := by
  intro m
  show Real.log (Real.Gamma (m + 1)) = _
  rw [Real.Gamma_nat_eq_factorial]

/-- A list is the given function of its indices. -/
def ListIs (l : List ℝ) (n : ℕ) (f : ℕ → ℝ) : Prop := l.length = n ∧ ∀ i < n, l[i]? = some (f i)

/-! ## C59 -/

/-- **C59.**  The signal count probabilities are `n_on + 1` positive numbers that sum to one, and consecutive ones have the right ratio. -/
theorem C59_sigctp {ton toff : ℝ} (h1 : 0 < ton) (h2 : 0 < toff) (non noff : ℕ) :
    (sigctp non ton noff toff).length = non + 1 ∧ (∀ x ∈ sigctp non ton noff toff, 0 < x) ∧ (sigctp non ton noff toff).sum = 1 ∧
    ∀ (i : ℕ) (x y : ℝ), 0 < i → (sigctp non ton noff toff)[i - 1]? = some x → (sigctp non ton noff toff)[i]? = some y →
      y / x = (1 + toff / ton) * ((non - i + 1) / (non + noff - i + 1)) := by
  have hρ : 0 < 1 + toff / ton := by positivity
  have he := coeffsFrom_eq h1 h2 non noff _ (startIdx_le non ton noff toff)
  have hS : 0 < ∑ j ∈ range (non + 1), wgt (1 + toff / ton) non noff j := sum_pos (fun i _ => wgt_pos hρ _ _ _) (by simp)
  rw [sigctp, he]
  refine ⟨by simp, ?_, ?_, ?_⟩
  · intro x hx
    rw [List.mem_map] at hx
    obtain ⟨i, _, rfl⟩ := hx
    exact div_pos (wgt_pos hρ _ _ _) hS
  · rw [← List.sum_toFinset _ List.nodup_range, List.toFinset_range, ← sum_div, div_self hS.ne']
  · intro i x y hi hx hy
    obtain ⟨k, rfl⟩ : ∃ k, i = k + 1 := ⟨i - 1, by omega⟩
    simp only [Nat.add_sub_cancel, List.getElem?_map, Option.map_eq_some_iff, List.getElem?_range] at hx hy
    obtain ⟨a, ha, rfl⟩ := hx
    obtain ⟨b, hb, rfl⟩ := hy
    rw [List.getElem?_eq_some_iff] at ha hb
    obtain ⟨ha1, rfl⟩ := ha
    obtain ⟨hb1, rfl⟩ := hb
    have hb2 := hb1
    rw [List.length_range] at hb2
    simp only [List.getElem_range]
    have hk : k < non := by omega
    have hs := wgt_step hρ non noff k hk
    have hw := (wgt_pos hρ non noff k).ne'
    have hkn : (k : ℝ) < non := by exact_mod_cast hk
    have h0 : (0 : ℝ) ≤ noff := by positivity
    have hne : (non : ℝ) + noff - k ≠ 0 := by linarith
    push_cast
    have e1 : (non : ℝ) - (k + 1) + 1 = non - k := by ring
    have e2 : (non : ℝ) + noff - (k + 1) + 1 = non + noff - k := by ring
    rw [e1, e2, div_div_div_cancel_right₀ hS.ne', div_eq_iff hw]
    set ρ := 1 + toff / ton
    field_simp
    linear_combination hs

/-- **C59** (closed form).  Probability `i` is proportional to `(1 + t_off/t_on)^i (n_on + n_off - i)! / (n_on - i)!`. -/
theorem C59_closed {ton toff : ℝ} (h1 : 0 < ton) (h2 : 0 < toff) (non noff : ℕ) :
    ListIs (sigctp non ton noff toff) (non + 1) fun i =>
      (1 + toff / ton) ^ i * (non + noff - i).factorial / (non - i).factorial /
        ∑ j ∈ range (non + 1), (1 + toff / ton) ^ j * (non + noff - j).factorial / (non - j).factorial := by
  rw [sigctp, coeffsFrom_eq h1 h2 non noff _ (startIdx_le non ton noff toff)]
  refine ⟨by simp, fun i hi => ?_⟩
  simp [List.getElem?_range, hi, wgt]

/-- **C59** (start).  The index at which the recursion starts makes no difference. -/
theorem C59_start {ton toff : ℝ} (h1 : 0 < ton) (h2 : 0 < toff) (non noff mode mode' : ℕ) (hm : mode ≤ non) (hm' : mode' ≤ non) :
    coeffsFrom mode non ton noff toff = coeffsFrom mode' non ton noff toff := by
  rw [coeffsFrom_eq h1 h2 non noff mode hm, coeffsFrom_eq h1 h2 non noff mode' hm']

/-- Sixteen counts on source in an interval of 2, nine off source in one of 3. -/
example : (sigctp 16 2 9 3).sum = 1 := (C59_sigctp (by norm_num) (by norm_num) 16 9).2.2.1

/-! ## C61 -/

/-- The terms increase up to index `m` and decrease from there on. -/
def Peak (x : ℝ) (non noff m : ℕ) : Prop :=
  m ≤ non ∧ (∀ i j, i ≤ j → j ≤ m → trm x non noff i ≤ trm x non noff j) ∧ (∀ i j, m ≤ i → i ≤ j → j ≤ non → trm x non noff j ≤ trm x non noff i)

theorem Peak.max {x : ℝ} {non noff m : ℕ} (h : Peak x non noff m) : ∀ i ≤ non, trm x non noff i ≤ trm x non noff m := by
  intro i hi
  rcases Nat.le_total i m with h' | h'
  · exact h.2.1 i m h' le_rfl
  · exact h.2.2 m i le_rfl h' hi

theorem kmIdx_peak {x : ℝ} (hx : 0 < x) (non noff : ℕ) : ∃ m : ℕ, kmIdx x non noff = m ∧ Peak x non noff m := by
  obtain ⟨hd, hk1, hq⟩ := quad_facts x non noff
  unfold kmIdx
  dsimp only at hd hk1 hq ⊢
  rw [if_pos hd]
  set nns : ℝ := non + noff + x - 1 with hnns
  set disc := nns * nns + 4 * ((non : ℝ) + noff - non * x) with hdisc
  set k1 := 1 / 2 * (nns - Real.sqrt disc) with hk1d
  have hs0 := Real.sqrt_nonneg disc
  have hn : (0 : ℝ) ≤ non := by positivity
  have hf : (0 : ℝ) ≤ noff := by positivity
  have hk2 : (non : ℝ) ≤ 1 / 2 * (nns + Real.sqrt disc) := by
    by_contra hc
    push Not at hc
    -- the quadratic is not positive at n_on
    have h1 := (hq (1 / 2 * (nns + Real.sqrt disc)) hc.le)
    have hsq : Real.sqrt disc ^ 2 = disc := Real.sq_sqrt hd
    have : ((non : ℝ) - k1) * (non - 1 / 2 * (nns + Real.sqrt disc)) = -((non + 1) * noff) := by
      have h2 : ((non : ℝ) - 1 / 2 * (nns - Real.sqrt disc)) * (non - 1 / 2 * (nns + Real.sqrt disc)) = (non : ℝ) ^ 2 - nns * non + 1 / 4 * (nns * nns - Real.sqrt disc ^ 2) := by ring
      rw [hk1d, h2, hsq, hdisc, hnns]; ring
    have hlt : 0 < (non : ℝ) - 1 / 2 * (nns + Real.sqrt disc) := by linarith
    have hge : (0 : ℝ) ≤ (non + 1) * noff := by positivity
    have : 0 < (non : ℝ) - k1 := by
      have : k1 ≤ 1 / 2 * (nns + Real.sqrt disc) := by rw [hk1d]; linarith
      linarith
    nlinarith [mul_pos this hlt]
  have hm1 : (-1 : ℝ) ≤ k1 := by
    have := (hq (-1) (by linarith)).1 (by
      have : ((-1 : ℝ)) ^ 2 - nns * -1 - (non + noff - non * x) = x * (1 + non) := by rw [hnns]; ring
      rw [this]; positivity)
    rcases this with h' | h'
    · exact h'
    · linarith
  have ht : trunc (k1 + 1) = ⌊k1⌋ + 1 := by
    unfold trunc; rw [if_pos (by linarith), Int.floor_add_one]
  have hfl : -1 ≤ ⌊k1⌋ := by rw [Int.le_floor]; exact_mod_cast hm1
  have hinc : ∀ k : ℕ, k < non → ((k : ℤ) ≤ ⌊k1⌋ ↔ trm x non noff k ≤ trm x non noff (k + 1)) := by
    intro k hk
    have hkn : (k : ℝ) < non := by exact_mod_cast hk
    rw [trm_le_iff hx non noff k hk, hq k hkn.le, Int.le_floor]
    push_cast
    constructor
    · exact Or.inl
    · rintro (h' | h')
      · exact h'
      · linarith
  rw [ht]
  refine ⟨(min (⌊k1⌋ + 1) (non : ℤ)).toNat, by omega, by omega, ?_, ?_⟩
  · intro i j hij
    induction j, hij using Nat.le_induction with
    | base => intro _; exact le_rfl
    | succ j hij ih =>
      intro hj
      exact le_trans (ih (by omega)) ((hinc j (by omega)).1 (by omega))
  · intro i j hi hij
    induction j, hij using Nat.le_induction with
    | base => intro _; exact le_rfl
    | succ j hij ih =>
      intro hj
      refine le_trans ?_ (ih (by omega))
      by_contra hc
      push Not at hc
      have := (hinc j (by omega)).2 hc.le
      omega

/-- **C61.**  For a positive signal the index from the quadratic formula is one of `0 … n_on`, the terms of the series are largest there, increase up to it and decrease after it. -/
theorem C61_largest {s ton toff : ℝ} (hs : 0 < s) (h1 : 0 < ton) (h2 : 0 < toff) (non noff : ℕ) :
    ∃ m : ℕ, kmIdx (s * (ton + toff)) non noff = m ∧ m ≤ non ∧
      (∀ i ≤ non, trm (s * (ton + toff)) non noff i ≤ trm (s * (ton + toff)) non noff m) ∧
      (∀ i j, i ≤ j → j ≤ m → trm (s * (ton + toff)) non noff i ≤ trm (s * (ton + toff)) non noff j) ∧
      (∀ i j, m ≤ i → i ≤ j → j ≤ non → trm (s * (ton + toff)) non noff j ≤ trm (s * (ton + toff)) non noff i) := by
  obtain ⟨m, hm, hp⟩ := kmIdx_peak (x := s * (ton + toff)) (by positivity) non noff
  exact ⟨m, hm, hp.1, hp.max, hp.2⟩

theorem log_trm {x : ℝ} (hx : 0 < x) {non noff m : ℕ} :
    Real.log (trm x non noff m) = m * Real.log x + Real.log (non - m + noff).factorial - Real.log (non - m).factorial - Real.log m.factorial := by
  have a : ((non - m + noff).factorial : ℝ) ≠ 0 := by positivity
  have b : ((non - m).factorial : ℝ) ≠ 0 := by positivity
  have c : (m.factorial : ℝ) ≠ 0 := by positivity
  have d : x ^ m ≠ 0 := by positivity
  rw [trm, Real.log_div (mul_ne_zero d a) (mul_ne_zero b c), Real.log_mul d a, Real.log_mul b c, Real.log_pow]
  ring

theorem exact_args {g : ℝ → ℝ} (hg : Exact g) {non noff m : ℕ} (hm : m ≤ non) :
    g ((non : ℝ) - (m : ℤ) + 1 + noff) = Real.log (non - m + noff).factorial ∧ g ((non : ℝ) - (m : ℤ) + 1) = Real.log (non - m).factorial ∧
    g (((m : ℤ) : ℝ) + 1) = Real.log m.factorial := by
  refine ⟨?_, ?_, ?_⟩
  · rw [← hg (non - m + noff)]; congr 1; push_cast [Nat.cast_sub hm]; ring
  · rw [← hg (non - m)]; congr 1; push_cast [Nat.cast_sub hm]; ring
  · rw [← hg m]; congr 1

/-- **C61** (offset).  The offset is always a number.  It is the logarithm of a largest term of the series at the signal estimated from the two rates if that estimate is positive
(with the exponential factor unless the first term is the largest), and the logarithm of the first term otherwise. -/
theorem C61_offset {g : ℝ → ℝ} (hg : Exact g) {ton toff : ℝ} (h1 : 0 < ton) (h2 : 0 < toff) (non noff : ℕ) (s : ℝ) (hs : s = non / ton - noff / toff) :
    (s ≤ 0 → slmlOffset g non ton noff toff = some (Real.log (trm (s * (ton + toff)) non noff 0))) ∧
    (0 < s → ∃ m ≤ non, (∀ i ≤ non, trm (s * (ton + toff)) non noff i ≤ trm (s * (ton + toff)) non noff m) ∧
      slmlOffset g non ton noff toff = some (Real.log (trm (s * (ton + toff)) non noff m) - if m = 0 then 0 else s * ton)) := by
  have hzero : g ((non : ℝ) + 1 + noff) - g (non + 1) = Real.log (trm (s * (ton + toff)) non noff 0) := by
    have a : ((non + noff).factorial : ℝ) ≠ 0 := by positivity
    have b : (non.factorial : ℝ) ≠ 0 := by positivity
    have := hg (non + noff)
    have e : ((non : ℝ) + 1 + noff) = ((non + noff : ℕ) : ℝ) + 1 := by push_cast; ring
    rw [e, this, hg non]
    simp only [trm, Nat.sub_zero, pow_zero, one_mul, Nat.factorial_zero, Nat.cast_one, mul_one]
    rw [Real.log_div a b]
  constructor
  · intro hs0
    unfold slmlOffset
    dsimp only
    rw [← hs]
    have hkm : kmIdx (s * (ton + toff)) non noff ≤ 0 := by
      obtain ⟨hd, hk1, hq⟩ := quad_facts (s * (ton + toff)) non noff
      unfold kmIdx
      dsimp only at hd hk1 hq ⊢
      rw [if_pos hd]
      set x := s * (ton + toff) with hx
      have hx0 : x ≤ 0 := mul_nonpos_of_nonpos_of_nonneg hs0 (by positivity)
      set nns : ℝ := non + noff + x - 1 with hnns
      set disc := nns * nns + 4 * ((non : ℝ) + noff - non * x) with hdisc
      set k1 := 1 / 2 * (nns - Real.sqrt disc) with hk1d
      have hn : (0 : ℝ) ≤ non := by positivity
      have hle : k1 ≤ -1 := by
        have hsq : Real.sqrt disc ^ 2 = disc := Real.sq_sqrt hd
        have hs0 := Real.sqrt_nonneg disc
        by_contra hc
        push Not at hc
        have e : (k1 + 1) * (1 / 2 * (nns + Real.sqrt disc) + 1) = x * (1 + non) := by
          have h2 : (1 / 2 * (nns - Real.sqrt disc) + 1) * (1 / 2 * (nns + Real.sqrt disc) + 1) = 1 + nns + 1 / 4 * (nns * nns - Real.sqrt disc ^ 2) := by ring
          rw [hk1d, h2, hsq, hdisc, hnns]; ring
        have : 0 < (k1 + 1) * (1 / 2 * (nns + Real.sqrt disc) + 1) := by
          apply mul_pos (by linarith)
          have : k1 ≤ 1 / 2 * (nns + Real.sqrt disc) := by rw [hk1d]; linarith
          linarith
        have : x * (1 + non) ≤ 0 := mul_nonpos_of_nonpos_of_nonneg hx0 (by linarith)
        linarith
      refine le_trans (min_le_left _ _) ?_
      unfold trunc
      split_ifs with h0
      · have : k1 + 1 = 0 := by linarith
        rw [this]; simp
      · rw [Int.ceil_le]; push_cast; linarith
    rw [if_pos hkm, hzero]
  · intro hs0
    obtain ⟨m, hm, hmn, hmax, -⟩ := C61_largest hs0 h1 h2 non noff
    refine ⟨m, hmn, hmax, ?_⟩
    unfold slmlOffset
    dsimp only
    rw [← hs, hm]
    have hx : 0 < s * (ton + toff) := by positivity
    by_cases h0 : m = 0
    · subst h0; simp [hzero]
    · rw [if_neg (by omega), if_neg (by linarith), if_neg h0]
      obtain ⟨e1, e2, e3⟩ := exact_args hg (noff := noff) hmn
      rw [e1, e2, e3, log_trm hx]
      have : (non : ℝ) - noff * ton / toff = s * ton := by rw [hs]; field_simp
      rw [this]
      push_cast
      rfl

example : ∃ m ≤ 16, ∀ i ≤ 16, trm ((16 / 2 - 9 / 3) * (2 + 3)) 16 9 i ≤ trm ((16 / 2 - 9 / 3) * (2 + 3)) 16 9 m := by
  obtain ⟨m, h, h', _⟩ := (C61_offset exact_gamma (ton := 2) (toff := 3) (by norm_num) (by norm_num) 16 9 (16 / 2 - 9 / 3) (by norm_num)).2 (by norm_num)
  exact ⟨m, h, h'⟩

/-! ## C60 -/

/-- The result of `slmlike` for a positive signal, on a scale that the log gamma function sets. -/
theorem series_scale {g : ℝ → ℝ} {s ton toff offset cut : ℝ} (hs : 0 < s) (h1 : 0 < ton) (h2 : 0 < toff) (hc0 : 0 ≤ cut) (non noff : ℕ) :
    ∃ (m lo hi : ℕ) (A : ℝ), 0 < A ∧ A * trm (s * (ton + toff)) non noff m = Real.exp (lterm g s ton toff offset non noff m) ∧
      m ≤ non ∧ (∀ i ≤ non, trm (s * (ton + toff)) non noff i ≤ trm (s * (ton + toff)) non noff m) ∧
      lo ≤ m ∧ m ≤ hi ∧ hi ≤ non ∧
      (∀ i ≤ non, i < lo ∨ hi < i → trm (s * (ton + toff)) non noff i ≤ cut * trm (s * (ton + toff)) non noff m) ∧
      let r := slmlike g s non ton noff toff offset cut
      let big := A * trm (s * (ton + toff)) non noff m
      (Real.log big < -700 ∨ 700 < Real.log big → r.ierr = 1 ∧ r.ll = none) ∧
      (-700 ≤ Real.log big ∧ Real.log big ≤ 700 →
        r.ierr = 0 ∧ r.nt = hi + 1 - lo ∧ r.ll = some (Real.log (A * ∑ k ∈ Ico lo (hi + 1), trm (s * (ton + toff)) non noff k))) := by
  have hx : 0 < s * (ton + toff) := by positivity
  obtain ⟨m, hm, hp⟩ := kmIdx_peak hx non noff
  set x := s * (ton + toff) with hxd
  have hT := trm_pos hx non noff m
  set lt := lterm g s ton toff offset non noff m with hlt
  set A := Real.exp lt / trm x non noff m with hA
  have hA0 : 0 < A := by positivity
  have hAT : A * trm x non noff m = Real.exp lt := by rw [hA]; field_simp
  obtain ⟨lo, hlo, hd, hd1, -⟩ := downS_spec hx non noff A (cut * Real.exp lt) m (Real.exp lt) 1 hp.1
  obtain ⟨hi, hhi, hhn, hu, hu1, -⟩ := upS_spec hx non noff A (cut * Real.exp lt) (non - m) m (Real.exp lt + A * ∑ i ∈ Ico lo m, trm x non noff i) (1 + (m - lo)) (by have := hp.1; omega)
  rw [hAT] at hd hu
  refine ⟨m, lo, hi, A, hA0, hAT, hp.1, hp.max, hlo, hhi, hhn, ?_, ?_⟩
  · intro i hi' hout
    have hle : A * trm x non noff i ≤ cut * Real.exp lt := by
      rcases hout with h' | h'
      · rcases hd1 with h0 | h0
        · omega
        · exact le_trans (mul_le_mul_of_nonneg_left (hp.2.1 i lo h'.le hlo) hA0.le) h0
      · rcases hu1 with h0 | h0
        · omega
        · exact le_trans (mul_le_mul_of_nonneg_left (hp.2.2 hi i hhi h'.le hi') hA0.le) h0
    rw [← hAT] at hle
    have : A * trm x non noff i ≤ A * (cut * trm x non noff m) := by linarith
    exact le_of_mul_le_mul_left this hA0
  · dsimp only
    rw [hAT, Real.log_exp]
    unfold slmlike
    rw [if_neg hs.ne', if_neg (by linarith)]
    dsimp only
    rw [← hxd, hm, ← hlt]
    constructor
    · intro hbig
      rw [if_pos hbig]
      exact ⟨rfl, rfl⟩
    · intro hbig
      rw [if_neg (by push Not; exact hbig)]
      simp only [Int.toNat_natCast]
      rw [hd, hu]
      refine ⟨trivial, by omega, ?_⟩
      congr 2
      have e : ∑ k ∈ Ico lo (hi + 1), trm x non noff k = ∑ k ∈ Ico lo m, trm x non noff k + trm x non noff m + ∑ k ∈ Ico (m + 1) (hi + 1), trm x non noff k := by
        rw [← Finset.sum_Ico_succ_top hlo, Finset.sum_Ico_consecutive _ (by omega) (by omega)]
      rw [e, ← hAT]; ring

/-- **C60.**  For a positive signal and a cutoff in `[0, 1)` the error flag is set exactly if the logarithm of the first term of the scaled series is beyond 700 either way, and then no value
is set.  Otherwise the result is the logarithm of the sum of the terms `lo … hi` of the series, on a scale `A`; these are `nt` terms and a largest one `m` is among them, each term left out is
not larger than the cutoff times the largest.  The scale is `exp(-s t_on - offset)` if the log gamma function is exact. -/
theorem C60_series {g : ℝ → ℝ} {s ton toff offset cut : ℝ} (hs : 0 < s) (h1 : 0 < ton) (h2 : 0 < toff) (hc0 : 0 ≤ cut) (non noff : ℕ) :
    ∃ (m lo hi : ℕ) (A : ℝ), 0 < A ∧ (Exact g → A = Real.exp (-(s * ton) - offset)) ∧
      m ≤ non ∧ (∀ i ≤ non, trm (s * (ton + toff)) non noff i ≤ trm (s * (ton + toff)) non noff m) ∧
      lo ≤ m ∧ m ≤ hi ∧ hi ≤ non ∧
      (∀ i ≤ non, i < lo ∨ hi < i → trm (s * (ton + toff)) non noff i ≤ cut * trm (s * (ton + toff)) non noff m) ∧
      let r := slmlike g s non ton noff toff offset cut
      let big := A * trm (s * (ton + toff)) non noff m
      (Real.log big < -700 ∨ 700 < Real.log big → r.ierr = 1 ∧ r.ll = none) ∧
      (-700 ≤ Real.log big ∧ Real.log big ≤ 700 →
        r.ierr = 0 ∧ r.nt = hi + 1 - lo ∧ r.ll = some (Real.log (A * ∑ k ∈ Ico lo (hi + 1), trm (s * (ton + toff)) non noff k))) := by
  have hx : 0 < s * (ton + toff) := by positivity
  obtain ⟨m, lo, hi, A, hA0, hAT, hmn, hrest⟩ := series_scale (g := g) (offset := offset) hs h1 h2 hc0 non noff
  refine ⟨m, lo, hi, A, hA0, fun hg => ?_, hmn, hrest⟩
  have hT := trm_pos hx non noff m
  obtain ⟨e1, e2, e3⟩ := exact_args hg (noff := noff) hmn
  have : lterm g s ton toff offset non noff m = Real.log (trm (s * (ton + toff)) non noff m) + (-(s * ton) - offset) := by
    rw [lterm, e1, e2, e3, log_trm hx]
    push_cast; ring
  rw [this, Real.exp_add, Real.exp_log hT, mul_comm] at hAT
  exact mul_left_cancel₀ hT.ne' hAT

/-- **C60** (no cutoff).  With a cutoff of zero and an exact log gamma function, the result is the logarithm of the full series with all `n_on + 1` terms. -/
theorem C60_full {g : ℝ → ℝ} (hg : Exact g) {s ton toff offset : ℝ} (hs : 0 < s) (h1 : 0 < ton) (h2 : 0 < toff) (non noff : ℕ)
    (hok : (slmlike g s non ton noff toff offset 0).ierr = 0) :
    (slmlike g s non ton noff toff offset 0).nt = non + 1 ∧
    (slmlike g s non ton noff toff offset 0).ll = some (Real.log (∑ k ∈ range (non + 1), trm (s * (ton + toff)) non noff k) - s * ton - offset) := by
  have hx : 0 < s * (ton + toff) := by positivity
  obtain ⟨m, lo, hi, A, hA0, hA, hmn, hmax, hlo, hhi, hhn, hout, herr, hr⟩ := C60_series (g := g) (offset := offset) hs h1 h2 le_rfl non noff
  have hlo0 : lo = 0 := by
    by_contra hc
    have := hout 0 (by omega) (Or.inl (by omega))
    rw [zero_mul] at this
    exact absurd (trm_pos hx non noff 0) (not_lt.2 this)
  have hhi0 : hi = non := by
    by_contra hc
    have := hout non le_rfl (Or.inr (by omega))
    rw [zero_mul] at this
    exact absurd (trm_pos hx non noff non) (not_lt.2 this)
  by_cases hb : Real.log (A * trm (s * (ton + toff)) non noff m) < -700 ∨ 700 < Real.log (A * trm (s * (ton + toff)) non noff m)
  · have := (herr hb).1; omega
  · push Not at hb
    obtain ⟨-, h4, h5⟩ := hr hb
    rw [hlo0, hhi0] at h4 h5
    refine ⟨by omega, ?_⟩
    rw [h5, Nat.Ico_zero_eq_range, hA hg]
    have hS : 0 < ∑ k ∈ range (non + 1), trm (s * (ton + toff)) non noff k := sum_pos (fun i _ => trm_pos hx _ _ _) (by simp)
    rw [Real.log_mul (Real.exp_pos _).ne' hS.ne', Real.log_exp]
    congr 1; ring

/-- **C60** (accuracy).  The truncated sum does not exceed the full one, and is at least the full one divided by `1 + n_on cut`. -/
theorem C60_accuracy {g : ℝ → ℝ} (hg : Exact g) {s ton toff offset cut l : ℝ} (hs : 0 < s) (h1 : 0 < ton) (h2 : 0 < toff) (hc0 : 0 ≤ cut) (non noff : ℕ)
    (hl : (slmlike g s non ton noff toff offset cut).ll = some l) :
    let full := Real.exp (-(s * ton) - offset) * ∑ k ∈ range (non + 1), trm (s * (ton + toff)) non noff k
    Real.exp l ≤ full ∧ full ≤ (1 + non * cut) * Real.exp l ∧ (slmlike g s non ton noff toff offset cut).nt ≤ non + 1 := by
  have hx : 0 < s * (ton + toff) := by positivity
  obtain ⟨m, lo, hi, A, hA0, hA, hmn, hmax, hlo, hhi, hhn, hout, herr, hr⟩ := C60_series (g := g) (offset := offset) hs h1 h2 hc0 non noff
  have hb : -700 ≤ Real.log (A * trm (s * (ton + toff)) non noff m) ∧ Real.log (A * trm (s * (ton + toff)) non noff m) ≤ 700 := by
    by_contra hc
    have := (herr (by rcases not_and_or.1 hc with h' | h' <;> push Not at h' <;> tauto)).2
    rw [hl] at this; cases this
  obtain ⟨-, hnt, hll⟩ := hr hb
  rw [hl] at hll
  simp only [Option.some.injEq] at hll
  rw [← hA hg]
  set T := trm (s * (ton + toff)) non noff with hT
  have hTp : ∀ i, 0 < T i := fun i => trm_pos hx non noff i
  have hS : 0 < ∑ k ∈ Ico lo (hi + 1), T k := sum_pos (fun i _ => hTp i) ⟨m, by simp; omega⟩
  have hexp : Real.exp l = A * ∑ k ∈ Ico lo (hi + 1), T k := by rw [hll, Real.exp_log (mul_pos hA0 hS)]
  rw [hexp]
  have hsub : Ico lo (hi + 1) ⊆ range (non + 1) := by
    intro k hk; rw [mem_Ico] at hk; rw [mem_range]; omega
  have hsplit := Finset.sum_sdiff (f := T) hsub
  have hm : T m ≤ ∑ k ∈ Ico lo (hi + 1), T k := Finset.single_le_sum (fun i _ => (hTp i).le) (by rw [mem_Ico]; omega)
  have hrest : ∑ k ∈ range (non + 1) \ Ico lo (hi + 1), T k ≤ non * (cut * T m) := by
    have hb' : ∀ k ∈ range (non + 1) \ Ico lo (hi + 1), T k ≤ cut * T m := by
      intro k hk
      rw [mem_sdiff, mem_range, mem_Ico] at hk
      exact hout k (by omega) (by omega)
    refine le_trans (Finset.sum_le_card_nsmul _ _ _ hb') ?_
    rw [nsmul_eq_mul]
    apply mul_le_mul_of_nonneg_right _ (mul_nonneg hc0 (hTp m).le)
    have : (range (non + 1) \ Ico lo (hi + 1)).card ≤ non := by
      rw [Finset.card_sdiff_of_subset hsub, card_range, Nat.card_Ico]; omega
    exact_mod_cast this
  have hrest0 : 0 ≤ ∑ k ∈ range (non + 1) \ Ico lo (hi + 1), T k := Finset.sum_nonneg fun i _ => (hTp i).le
  refine ⟨?_, ?_, by rw [hnt]; omega⟩
  · apply mul_le_mul_of_nonneg_left _ hA0.le
    linarith
  · have : ∑ k ∈ range (non + 1), T k ≤ (1 + non * cut) * ∑ k ∈ Ico lo (hi + 1), T k := by
      have hnc : (0 : ℝ) ≤ non * cut := by positivity
      have := mul_le_mul_of_nonneg_left hm hnc
      nlinarith
    calc A * ∑ k ∈ range (non + 1), T k ≤ A * ((1 + non * cut) * ∑ k ∈ Ico lo (hi + 1), T k) := mul_le_mul_of_nonneg_left this hA0.le
      _ = _ := by ring

/-- **C60** (no signal).  Without a signal the result is the logarithm of the series, which then has a single term. -/
theorem C60_zero {g : ℝ → ℝ} (hg : Exact g) (ton toff offset cut : ℝ) (non noff : ℕ) :
    (slmlike g 0 non ton noff toff offset cut).ll = some (Real.log (∑ k ∈ range (non + 1), trm (0 * (ton + toff)) non noff k) - 0 * ton - offset) ∧
    (slmlike g 0 non ton noff toff offset cut).ierr = 0 := by
  have hsum : ∑ k ∈ range (non + 1), trm (0 * (ton + toff)) non noff k = (non + noff).factorial / non.factorial := by
    rw [Finset.sum_range_succ', Finset.sum_eq_zero]
    · simp [trm]
    · intro k _; simp [trm]
  have a : ((non + noff).factorial : ℝ) ≠ 0 := by positivity
  have b : (non.factorial : ℝ) ≠ 0 := by positivity
  have e := hg (non + noff)
  push_cast at e
  unfold slmlike
  rw [if_pos rfl]
  refine ⟨?_, by simp⟩
  rw [hsum, Real.log_div a b, e, hg non]
  simp

/-- A case that meets the hypotheses: one count on source, none off, unit intervals and a signal of one. -/
example : (slmlike (fun x => Real.log (Real.Gamma x)) 1 1 1 0 1 0 0).nt = 2 := by
  refine (C60_full exact_gamma one_pos one_pos one_pos 1 0 ?_).1
  obtain ⟨m, lo, hi, A, hA0, hA, hmn, hmax, -, -, -, -, -, hr⟩ := C60_series (g := fun x => Real.log (Real.Gamma x)) (s := 1) (ton := 1) (toff := 1) (offset := 0) (cut := 0)
    one_pos one_pos one_pos le_rfl 1 0
  refine (hr ?_).1
  have h1 := hmax 0 (by omega)
  have hT : trm (1 * (1 + 1)) 1 0 m = 1 ∨ trm (1 * (1 + 1)) 1 0 m = 2 := by
    have : m = 0 ∨ m = 1 := by omega
    rcases this with rfl | rfl <;> norm_num [trm]
  rw [hA exact_gamma]
  have hpos : 0 < trm (1 * (1 + 1)) 1 0 m := by rcases hT with h | h <;> rw [h] <;> norm_num
  rw [Real.log_mul (Real.exp_pos _).ne' hpos.ne', Real.log_exp]
  have l0 : 0 ≤ Real.log (trm (1 * (1 + 1)) 1 0 m) := Real.log_nonneg (by rcases hT with h | h <;> rw [h] <;> norm_num)
  have l1 : Real.log (trm (1 * (1 + 1)) 1 0 m) ≤ trm (1 * (1 + 1)) 1 0 m - 1 := Real.log_le_sub_one_of_pos hpos
  rcases hT with h | h <;> rw [h] at l0 l1 ⊢ <;> constructor <;> linarith

/-! ## C62 -/

/-- The states of the factorial table after any sequence of calls of `ppois`. -/
inductive Reach (g : ℝ → ℝ) : Table → Prop
  | init (junk : ℕ → ℝ) : Reach g (Table.init junk)
  | call (t : Table) (n : ℕ) (dm : ℝ) : Reach g t → Reach g (ppois g t n dm).1

theorem Reach.good {g : ℝ → ℝ} {t : Table} (h : Reach g t) : t.Good := by
  induction h with
  | init junk => exact init_good junk
  | call t n dm _ ih => exact ppois_good ih n dm

theorem poisson_exp {n : ℕ} {dm : ℝ} (h : 0 < dm) : Real.exp (n * Real.log dm - dm - Real.log n.factorial) = dm ^ n * Real.exp (-dm) / n.factorial := by
  have a : (0 : ℝ) < n.factorial := by positivity
  have e : (n : ℝ) * Real.log dm - dm - Real.log n.factorial = Real.log (dm ^ n) + (-dm) - Real.log n.factorial := by
    rw [Real.log_pow]; ring
  rw [e, Real.exp_sub, Real.exp_add, Real.exp_log (by positivity), Real.exp_log a]

/-- **C62** (table).  Whatever calls were made before, the Poisson probability is `m^n e^-m / n!` up to `n = 32`, and uses the log gamma function beyond. -/
theorem C62_ppois {g : ℝ → ℝ} {t : Table} (h : Reach g t) (n : ℕ) (dm : ℝ) :
    (ppois g t n dm).2 = if n ≤ 32 ∨ dm = 0 then dm ^ n * Real.exp (-dm) / n.factorial else Real.exp (n * Real.log dm - dm - g (n + 1)) :=
  ppois_val h.good n dm

/-- **C62** (value).  It is the Poisson probability for every `n` and every mean that is not negative, if the log gamma function is exact. -/
theorem C62_poisson {g : ℝ → ℝ} (hg : Exact g) {t : Table} (h : Reach g t) (n : ℕ) {dm : ℝ} (hm : 0 ≤ dm) :
    (ppois g t n dm).2 = dm ^ n * Real.exp (-dm) / n.factorial := by
  rw [C62_ppois h]
  split_ifs with hc
  · rfl
  · push Not at hc
    rw [hg n, poisson_exp (lt_of_le_of_ne hm (Ne.symm hc.2))]

example : (ppois (fun x => Real.log (Real.Gamma x)) (ppois (fun x => Real.log (Real.Gamma x)) (Table.init fun _ => 7) 5 2).1 3 2).2 = 2 ^ 3 * Real.exp (-2) / 6 := by
  have := C62_poisson exact_gamma (.call _ 5 2 (.init fun _ => 7)) 3 (dm := 2) (by norm_num)
  rw [this]; norm_num [Nat.factorial]

/-- The states of the table of `lppois` after any sequence of its calls; each call finds something in the memory of its second table. -/
inductive LReach (g : ℝ → ℝ) : Table → Prop
  | init (junk : ℕ → ℝ) : LReach g (Table.init junk)
  | call (t : Table) (b : ℕ → ℝ) (n : ℕ) (dm : ℝ) : LReach g t → LReach g (lppois g t b n dm).1

theorem LReach.good {g : ℝ → ℝ} {t : Table} (h : LReach g t) : t.Good := by
  induction h with
  | init junk => exact init_good junk
  | call t b n dm _ ih =>
    unfold lppois
    by_cases h1 : dm = 0
    · rw [if_pos h1]; exact ih
    rw [if_neg h1]
    by_cases h2 : n ≤ t.ntop
    · rw [if_pos h2]; exact ih
    rw [if_neg h2]
    by_cases h3 : n ≤ 32
    · rw [if_pos h3]
      dsimp only
      rw [extend2_fst]
      refine ⟨h3, fun m hm => ?_⟩
      exact extend_spec _ _ _ (by omega) (fun k hk => ih.2 k (by omega)) m (by simp only at hm; omega)
    · rw [if_neg h3]; exact ih

/-- **C62** (logarithm, part).  The log probability is right for an `n` larger than any used before (with a mean that is not zero), and for `n > 32` if the log gamma function is exact.
Missing: an `n` no larger than one used before (`C62_violated`). -/
theorem C62_lppois_partial {g : ℝ → ℝ} (hg : Exact g) {t : Table} (h : LReach g t) (b : ℕ → ℝ) {n : ℕ} (hn : t.ntop < n) {dm : ℝ} (hm : 0 < dm) :
    (lppois g t b n dm).2 = Real.log (dm ^ n * Real.exp (-dm) / n.factorial) := by
  have hval : (lppois g t b n dm).2 = n * Real.log dm - dm - Real.log n.factorial := by
    unfold lppois
    rw [if_neg hm.ne', if_neg (by omega)]
    by_cases h3 : n ≤ 32
    · rw [if_pos h3]
      dsimp only
      rw [extend2_snd _ _ _ _ (by omega) (fun k hk => h.good.2 k (by omega)), if_pos (by omega)]
    · rw [if_neg h3, hg n]
  rw [hval, ← poisson_exp hm, Real.log_exp]

/-- **C62 is violated by the logarithm**: for `n = 0` in any state, and for any `n` up to the largest used so far, the result depends on what the memory of an array that is not saved holds. -/
theorem C62_violated {g : ℝ → ℝ} {t : Table} {n : ℕ} (hn : n ≤ t.ntop) {dm : ℝ} (hm : dm ≠ 0) (y : ℝ) :
    ∃ b, (lppois g t b n dm).2 = y := by
  refine ⟨fun _ => n * Real.log dm - dm - y, ?_⟩
  unfold lppois
  rw [if_neg hm, if_pos hn]
  simp

example : ∃ b, (lppois (fun x => Real.log (Real.Gamma x)) (Table.init fun _ => 0) b 0 1).2 = 42 := C62_violated (Nat.zero_le _) one_ne_zero 42

example : (lppois (fun x => Real.log (Real.Gamma x)) (Table.init fun _ => 0) (fun _ => 5) 3 1).2 = Real.log (1 ^ 3 * Real.exp (-1) / Nat.factorial 3) :=
  C62_lppois_partial exact_gamma (.init _) _ (by simp [Table.init]) one_pos

/-! ## C63 -/

/-- The states of an object after any sequence of calls of `pnsig` and `sigmp`, if the caller does not write into the arrays it gets. -/
inductive OReach (g : ℝ → ℝ) (onCts : ℕ) (onIntvl : ℝ) (offCts : ℕ) (offIntvl cutoff : ℝ) : Obj → Prop
  | new : OReach g onCts onIntvl offCts offIntvl cutoff (Obj.new g onCts onIntvl offCts offIntvl cutoff)
  | pnsig (o : Obj) (n : Option ℤ) : OReach g onCts onIntvl offCts offIntvl cutoff o → OReach g onCts onIntvl offCts offIntvl cutoff (o.pnsig n).1
  | sigmp (o : Obj) (t : Table) (s : ℝ) : OReach g onCts onIntvl offCts offIntvl cutoff o → OReach g onCts onIntvl offCts offIntvl cutoff (o.sigmp g t s).2.1

theorem pnsig_fst (o : Obj) (n : Option ℤ) : (o.pnsig n).1 = o.fill := by
  unfold Obj.pnsig
  dsimp only
  cases n with
  | none => rfl
  | some n => dsimp only; split_ifs <;> rfl

theorem OReach.inv {g : ℝ → ℝ} {onCts : ℕ} {onIntvl : ℝ} {offCts : ℕ} {offIntvl cutoff : ℝ} {o : Obj} (h : OReach g onCts onIntvl offCts offIntvl cutoff o) :
    o.onCts = onCts ∧ o.onIntvl = onIntvl ∧ o.offCts = offCts ∧ o.offIntvl = offIntvl ∧ o.cutoff = cutoff ∧
    o.offset = slmlOffset g onCts onIntvl offCts offIntvl ∧
    (o.p = none ∨ o.p = some (sigctp onCts onIntvl offCts offIntvl)) := by
  have hfill : ∀ o : Obj, (o.onCts = onCts ∧ o.onIntvl = onIntvl ∧ o.offCts = offCts ∧ o.offIntvl = offIntvl ∧ o.cutoff = cutoff ∧
      o.offset = slmlOffset g onCts onIntvl offCts offIntvl ∧
      (o.p = none ∨ o.p = some (sigctp onCts onIntvl offCts offIntvl))) → (o.fill.onCts = onCts ∧ o.fill.onIntvl = onIntvl ∧ o.fill.offCts = offCts ∧
      o.fill.offIntvl = offIntvl ∧ o.fill.cutoff = cutoff ∧ o.fill.offset = slmlOffset g onCts onIntvl offCts offIntvl ∧
      (o.fill.p = none ∨ o.fill.p = some (sigctp onCts onIntvl offCts offIntvl))) := by
    rintro ⟨a, b, c, d, e, off, p⟩ ⟨h1, h2, h3, h4, h5, h6, hp⟩
    simp only at h1 h2 h3 h4 h5 h6 hp
    subst h1 h2 h3 h4 h5
    rcases hp with rfl | rfl
    · exact ⟨rfl, rfl, rfl, rfl, rfl, h6, Or.inr rfl⟩
    · exact ⟨rfl, rfl, rfl, rfl, rfl, h6, Or.inr rfl⟩
  induction h with
  | new => exact ⟨rfl, rfl, rfl, rfl, rfl, rfl, Or.inl rfl⟩
  | pnsig o n _ ih => rw [pnsig_fst]; exact hfill o ih
  | sigmp o t s _ ih => exact hfill o ih

theorem OReach.fill_p {g : ℝ → ℝ} {onCts : ℕ} {onIntvl : ℝ} {offCts : ℕ} {offIntvl cutoff : ℝ} {o : Obj} (h : OReach g onCts onIntvl offCts offIntvl cutoff o) :
    o.fill.p = some (sigctp onCts onIntvl offCts offIntvl) ∧ o.fill.onCts = onCts ∧ o.fill.onIntvl = onIntvl := by
  obtain ⟨rfl, rfl, rfl, rfl, rfl, -, hp⟩ := h.inv
  obtain ⟨a, b, c, d, e, off, p⟩ := o
  simp only at hp
  rcases hp with rfl | rfl <;> exact ⟨rfl, rfl, rfl⟩

/-- **C63** (part).  After any calls, `pnsig(n)` for `1 ≤ n ≤ on_cts` is the probability of `n` signal counts, a negative or too large `n` raises a ValueError, and no argument gives the array.
Missing: `n = 0` (`C63_violated`). -/
theorem C63_pnsig_partial {g : ℝ → ℝ} {onCts : ℕ} {onIntvl : ℝ} {offCts : ℕ} {offIntvl cutoff : ℝ} {o : Obj} (h1 : 0 < onIntvl) (h2 : 0 < offIntvl)
    (h : OReach g onCts onIntvl offCts offIntvl cutoff o) :
    (∀ n : ℕ, 1 ≤ n → n ≤ onCts → (o.pnsig (some n)).2 = .num ((1 + offIntvl / onIntvl) ^ n * (onCts + offCts - n).factorial / (onCts - n).factorial /
        ∑ j ∈ range (onCts + 1), (1 + offIntvl / onIntvl) ^ j * (onCts + offCts - j).factorial / (onCts - j).factorial)) ∧
    (∀ n : ℤ, n < 0 ∨ (onCts : ℤ) < n → (o.pnsig (some n)).2 = .err .value) ∧
    (o.pnsig none).2 = .array (sigctp onCts onIntvl offCts offIntvl) := by
  obtain ⟨hp, hc, -⟩ := h.fill_p
  refine ⟨?_, ?_, ?_⟩
  · intro n hn1 hn2
    unfold Obj.pnsig
    dsimp only
    rw [if_neg (by omega), hc, if_neg (by omega), hp]
    simp only [Option.getD_some, Int.toNat_natCast]
    rw [(C59_closed h1 h2 onCts offCts).2 n (by omega)]
  · intro n hn
    unfold Obj.pnsig
    dsimp only
    rw [if_neg (by omega), hc, if_pos (by omega)]
  · unfold Obj.pnsig
    simp [hp]

/-- **C63 is violated at zero**: `pnsig(0)` returns the whole array instead of the probability of no signal counts, in every state of every object. -/
theorem C63_violated (o : Obj) : ∃ xs, (o.pnsig (some 0)).2 = .array xs := ⟨_, rfl⟩

example : (Obj.pnsig (Obj.pnsig (Obj.new (fun _ => 0) 3 1 2 1 0) (some 0)).1 (some (5 : ℤ))).2 = .err .value :=
  (C63_pnsig_partial (g := fun _ => 0) (cutoff := 0) one_pos one_pos (.pnsig _ _ .new)).2.1 5 (by norm_num)

end Verif.OnOff
