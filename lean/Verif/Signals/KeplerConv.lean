import Verif.Signals.KeplerLemmas
import Mathlib.Tactic.NormNum
import Mathlib.Tactic.FieldSimp

/-!
# Helper lemmas for C109: how many iterations the solver takes
-/

set_option linter.unusedSectionVars false

namespace Verif.Signals.Kepler

open Real

variable {e : ℝ}

/-- `n` iterations from the right, starting within `b` of the root, are enough if every iteration takes off a third of the distance, or squares it. -/
def Fin' (q err : ℝ) : ℕ → ℝ → Prop
  | 0, _ => False
  | n + 1, b => b < err ∨ Fin' q err n (2 / 3 * b) ∨ Fin' q err n (q * b ^ 2)

theorem Fin'.mono {q err : ℝ} (hq : 0 ≤ q) : ∀ {n : ℕ} {b b' : ℝ}, 0 ≤ b → b ≤ b' → Fin' q err n b' → Fin' q err n b
  | 0, _, _, _, _, h => h
  | n + 1, b, b', h0, h1, h => by
    rcases h with h | h | h
    · exact Or.inl (by linarith)
    · exact Or.inr (Or.inl (Fin'.mono hq (by linarith) (by linarith) h))
    · refine Or.inr (Or.inr (Fin'.mono hq (by positivity) ?_ h))
      exact mul_le_mul_of_nonneg_left (pow_le_pow_left₀ h0 h1 2) hq

theorem Fin'.mono_q {q q' err : ℝ} (hq : 0 ≤ q) (hq' : q ≤ q') : ∀ {n : ℕ} {b : ℝ}, 0 ≤ b → Fin' q' err n b → Fin' q err n b
  | 0, _, _, h => h
  | n + 1, b, h0, h => by
    rcases h with h | h | h
    · exact Or.inl h
    · exact Or.inr (Or.inl (Fin'.mono_q hq hq' (by positivity) h))
    · refine Or.inr (Or.inr (Fin'.mono_q hq hq' (by positivity) (Fin'.mono (hq.trans hq') (by positivity) ?_ h)))
      exact mul_le_mul_of_nonneg_right hq' (sq_nonneg b)

theorem Fin'.mono_err {q err err' : ℝ} (he : err ≤ err') : ∀ {n : ℕ} {b : ℝ}, Fin' q err n b → Fin' q err' n b
  | 0, _, h => h
  | n + 1, b, h => by
    rcases h with h | h | h
    · exact Or.inl (by linarith)
    · exact Or.inr (Or.inl (Fin'.mono_err he h))
    · exact Or.inr (Or.inr (Fin'.mono_err he h))

theorem Fin'.succ {q err : ℝ} : ∀ {n : ℕ} {b : ℝ}, Fin' q err n b → Fin' q err (n + 1) b
  | 0, _, h => h.elim
  | n + 1, b, h => by
    rcases h with h | h | h
    · exact Or.inl h
    · exact Or.inr (Or.inl h.succ)
    · exact Or.inr (Or.inr h.succ)

section
variable (h0 : 0 ≤ e) (h1 : e < 1) {f R : ℝ} (hR : R - e * sin R = f) (hR0 : 0 ≤ R)
include h0 h1 hR hR0

/-- From the right the loop ends in time. -/
theorem newton_right (err : ℝ) : ∀ (n : ℕ) {b EA lo hi : ℝ}, lo ≤ EA → EA ≤ hi → lo ≤ R → R ≤ hi → 0 ≤ EA → hi ≤ π → R ≤ EA → EA - R ≤ b →
    Fin' (e / (2 * (1 - e))) err n b → (newton e f err n EA lo hi).isSome
  | 0, _, _, _, _, _, _, _, _, _, _, _, _, h => h.elim
  | n + 1, b, EA, lo, hi, a1, a2, a3, a4, a5, a6, a7, a8, h => by
    have hq : 0 ≤ e / (2 * (1 - e)) := div_nonneg h0 (by linarith)
    obtain ⟨x, lo', hi', hs, hx⟩ := newton_step h0 h1 hR hR0 err n a1 a2 a3 a4 a5 a6
    rw [hs]
    by_cases hc : |x - EA| < err ∨ x = EA
    · rw [if_pos hc]; rfl
    · rw [if_neg hc]
      rcases hx with ⟨b1, -⟩ | ⟨b1, -⟩ | ⟨b1, rfl, rfl, b2, b3, b4, b5⟩
      · linarith
      · linarith
      · rcases h with h | h | h
        · exfalso
          apply hc
          left
          rw [abs_sub_comm, abs_of_nonneg (by linarith)]
          linarith
        · exact newton_right err n (by linarith) b3 a3 b1 (by linarith) (by linarith) b2 (by linarith) h
        · refine newton_right err n (by linarith) b3 a3 b1 (by linarith) (by linarith) b2 (b5.trans ?_) h
          exact mul_le_mul_of_nonneg_left (pow_le_pow_left₀ (by linarith) a8 2) hq

/-- The loop ends in time wherever it starts at or beyond the mean anomaly. -/
theorem newton_conv {err EA : ℝ} {n : ℕ} (hRp : R ≤ π) (hfE : f ≤ EA) (hE : EA ≤ π) (hf0 : 0 ≤ f)
    (hF : Fin' (e / (2 * (1 - e))) err n (44 / 21)) (hF' : Fin' (e / (2 * (1 - e))) err (n + 1) (22 / 7)) : (newton e f err (n + 2) EA (-π) π).isSome := by
  have hpi := pi_pos
  have hpi2 : π ≤ 22 / 7 := by linarith [pi_lt_d2, show (3.15 : ℝ) ≤ 22 / 7 + 1 by norm_num, pi_lt_d4, show (3.1416 : ℝ) ≤ 22 / 7 by norm_num]
  have hq : 0 ≤ e / (2 * (1 - e)) := div_nonneg h0 (by linarith)
  rcases le_or_gt R EA with h | h
  · exact newton_right h0 h1 hR hR0 err (n + 2) (by linarith) hE (by linarith) hRp (by linarith) le_rfl h (b := 22 / 7) (by linarith) hF'.succ
  obtain ⟨x, lo', hi', hs, hx⟩ := newton_step h0 h1 hR hR0 err (n + 1) (EA := EA) (lo := -π) (hi := π) (by linarith) hE (by linarith) hRp (by linarith) le_rfl
  rw [hs]
  by_cases hc : |x - EA| < err ∨ x = EA
  · rw [if_pos hc]; rfl
  rw [if_neg hc]
  rcases hx with ⟨-, rfl, rfl, b2, b3⟩ | ⟨-, rfl, rfl, b2, b4⟩ | ⟨b1, -⟩
  · exact newton_right h0 h1 hR hR0 err (n + 1) (by linarith) b3 h.le hRp (by linarith) le_rfl b2 (b := 22 / 7) (by linarith) hF'
  · rcases le_or_gt R x with hx | hx
    · exact newton_right h0 h1 hR hR0 err (n + 1) (by linarith) (by linarith) h.le hRp (by linarith) le_rfl hx (b := 22 / 7) (by linarith) hF'
    · obtain ⟨y, lo', hi', hs, hy⟩ := newton_step h0 h1 hR hR0 err n (EA := x) (lo := lo') (hi := π) (by linarith) (by linarith) h.le hRp (by linarith) le_rfl
      rw [hs]
      by_cases hc : |y - x| < err ∨ y = x
      · rw [if_pos hc]; rfl
      rw [if_neg hc]
      rcases hy with ⟨-, rfl, rfl, c2, c3⟩ | ⟨-, rfl, rfl, c2, c4⟩ | ⟨c1, -⟩
      · exact newton_right h0 h1 hR hR0 err n (by linarith) c3 hx.le hRp (by linarith) le_rfl c2 (b := 44 / 21) (by linarith) hF
      · exfalso
        -- a second step beyond π is impossible
        have hd : 0 ≤ π - lo' := by linarith
        obtain ⟨d, hd'⟩ : ∃ d, d = π - lo' := ⟨_, rfl⟩
        have ec : cos lo' = -cos d := by rw [hd', cos_pi_sub]; ring
        have es : sin lo' = sin d := by rw [hd', sin_pi_sub]
        rw [ec, es, ← hd'] at c4
        have hd0 : 0 ≤ d := by linarith
        have k1 := sin_le hd0
        have k2 := one_sub_sq_div_two_le_cos (x := d)
        have k3 : sin d - d * cos d ≤ d ^ 3 / 2 := by nlinarith
        have k4 : π - f < e * (sin d - d * cos d) := by
          have : lo' = π - d := by linarith
          rw [this] at c4
          nlinarith
        have k5 : e * (sin d - d * cos d) ≤ d ^ 3 / 2 := by
          have : 0 ≤ d ^ 3 / 2 := by positivity
          nlinarith [mul_le_mul_of_nonneg_left k3 h0]
        have k6 : d ≤ (π - f) / 2 := by linarith
        have k7 : d ^ 3 ≤ ((π - f) / 2) ^ 3 := pow_le_pow_left₀ hd0 k6 3
        have k8 : π - f ≤ 22 / 7 := by linarith
        have k9 : 0 ≤ π - f := by linarith
        nlinarith [mul_nonneg k9 (sq_nonneg (π - f)), mul_nonneg k9 (mul_nonneg (sub_nonneg.2 k8) (by linarith : (0:ℝ) ≤ 22 / 7 + (π - f)))]
      · linarith
  · linarith

end

/-- Twenty iterations suffice for eccentricities up to 0.98 and the default tolerance. -/
theorem fin_98 {err : ℝ} (he : e ≤ 49 / 50) (h0 : 0 ≤ e) (herr : 1 / 10 ^ 8 ≤ err) :
    Fin' (e / (2 * (1 - e))) err 18 (44 / 21) ∧ Fin' (e / (2 * (1 - e))) err 19 (22 / 7) := by
  have hq : e / (2 * (1 - e)) ≤ 49 / 2 := by rw [div_le_iff₀ (by linarith)]; linarith
  have hq0 : 0 ≤ e / (2 * (1 - e)) := div_nonneg h0 (by linarith)
  have base : Fin' (49 / 2) (1 / 10 ^ 8) 18 (44 / 21) := by
    iterate 12 refine Or.inr (Or.inl ?_)
    iterate 5 refine Or.inr (Or.inr ?_)
    refine Or.inl ?_
    norm_num
  have b1 := (base.mono_err herr).mono_q hq0 hq (by norm_num)
  exact ⟨b1, Or.inr (Or.inl (by norm_num at b1 ⊢; exact b1))⟩

/-- … and up to 0.99 with the tolerance that kepler.py sets. -/
theorem fin_99 {err : ℝ} (he : e ≤ 99 / 100) (h0 : 0 ≤ e) (herr : 1 / 10 ^ 5 ≤ err) :
    Fin' (e / (2 * (1 - e))) err 18 (44 / 21) ∧ Fin' (e / (2 * (1 - e))) err 19 (22 / 7) := by
  have hq : e / (2 * (1 - e)) ≤ 99 / 2 := by rw [div_le_iff₀ (by linarith)]; linarith
  have hq0 : 0 ≤ e / (2 * (1 - e)) := div_nonneg h0 (by linarith)
  have base : Fin' (99 / 2) (1 / 10 ^ 5) 18 (44 / 21) := by
    iterate 14 refine Or.inr (Or.inl ?_)
    iterate 3 refine Or.inr (Or.inr ?_)
    refine Or.inl ?_
    norm_num
  have b1 := (base.mono_err herr).mono_q hq0 hq (by norm_num)
  exact ⟨b1, Or.inr (Or.inl (by norm_num at b1 ⊢; exact b1))⟩

/-! ## An orbit for which twenty iterations are not enough -/

theorem cos_le_quartic {x : ℝ} (hx : 0 ≤ x) : cos x ≤ 1 - x ^ 2 / 2 + x ^ 4 / 24 := by
  let g : ℝ → ℝ := fun x => 1 - x ^ 2 / 2 + x ^ 4 / 24 - cos x
  have hd : ∀ y, HasDerivAt g (-y + y ^ 3 / 6 + sin y) y := by
    intro y
    have := (((hasDerivAt_pow 2 y).div_const 2).const_sub 1).add ((hasDerivAt_pow 4 y).div_const 24)
    refine (this.sub (hasDerivAt_cos y)).congr_deriv ?_
    norm_num
    ring
  have hm : MonotoneOn g (Set.Ici 0) := by
    refine monotoneOn_of_deriv_nonneg (convex_Ici 0) (fun y _ => (hd y).continuousAt.continuousWithinAt)
      (fun y _ => (hd y).differentiableAt.differentiableWithinAt) fun y hy => ?_
    rw [interior_Ici] at hy
    rw [(hd y).deriv]
    linarith [sin_ge_sub_cube (le_of_lt (show (0 : ℝ) < y from hy))]
  have := hm (Set.mem_Ici.2 (le_refl 0)) (Set.mem_Ici.2 hx) hx
  simp only [g] at this
  norm_num at this
  linarith

theorem sin_le_quintic {x : ℝ} (hx : 0 ≤ x) : sin x ≤ x - x ^ 3 / 6 + x ^ 5 / 120 := by
  let g : ℝ → ℝ := fun x => x - x ^ 3 / 6 + x ^ 5 / 120 - sin x
  have hd : ∀ y, HasDerivAt g (1 - y ^ 2 / 2 + y ^ 4 / 24 - cos y) y := by
    intro y
    have := ((hasDerivAt_id y).sub ((hasDerivAt_pow 3 y).div_const 6)).add ((hasDerivAt_pow 5 y).div_const 120)
    refine (this.sub (hasDerivAt_sin y)).congr_deriv ?_
    norm_num
    ring
  have hm : MonotoneOn g (Set.Ici 0) := by
    refine monotoneOn_of_deriv_nonneg (convex_Ici 0) (fun y _ => (hd y).continuousAt.continuousWithinAt)
      (fun y _ => (hd y).differentiableAt.differentiableWithinAt) fun y hy => ?_
    rw [interior_Ici] at hy
    rw [(hd y).deriv]
    linarith [cos_le_quartic (le_of_lt (show (0 : ℝ) < y from hy))]
  have := hm (Set.mem_Ici.2 (le_refl 0)) (Set.mem_Ici.2 hx) hx
  simp only [g] at this
  norm_num at this
  linarith

/-- One iteration far to the right of the root: the numbers. -/
theorem slow_facts {e f E a : ℝ} (he : e = 1 - 1 / 10 ^ 15) (hf0 : 0 ≤ f) (hf : f ≤ 7 / 10 ^ 13) (ha : 3 / 10 ^ 4 ≤ a) (haE : a ≤ E) (hE : E ≤ 8 / 5) :
    0 < E - e * sin E - f ∧ 1 / 10 ^ 5 < (E - e * sin E - f) / (1 - e * cos E) ∧
      666 / 1000 * a * (1 - a ^ 2 / 8) ≤ E - (E - e * sin E - f) / (1 - e * cos E) := by
  have hE0 : 0 < E := by linarith
  have h0 : 0 ≤ e := by rw [he]; norm_num
  have h1 : e < 1 := by rw [he]; norm_num
  have hd := den_pos h0 h1 E
  have s1 := sin_ge_sub_cube hE0.le
  have s2 := sin_le_quintic hE0.le
  have c1 := cos_le_quartic hE0.le
  have c2 := one_sub_sq_div_two_le_cos (x := E)
  have hEs : (3 / 10 ^ 4) ^ 2 ≤ E ^ 2 := pow_le_pow_left₀ (by norm_num) (by linarith) 2
  have hEc : (3 / 10 ^ 4) ^ 3 ≤ E ^ 3 := pow_le_pow_left₀ (by norm_num) (by linarith) 3
  have hE2 : E ^ 2 ≤ (8 / 5) ^ 2 := pow_le_pow_left₀ hE0.le hE 2
  have hsin0 : 0 ≤ sin E := sin_nonneg_of_nonneg_of_le_pi hE0.le (by linarith [pi_gt_three])
  have hD : 1 - e * cos E ≤ (1 + 1 / 10 ^ 6) * (E ^ 2 / 2) := by
    have : 1 - e * cos E = (1 - e) + e * (1 - cos E) := by ring
    rw [this, he]
    have : (1 - 1 / 10 ^ 15 : ℝ) * (1 - cos E) ≤ 1 * (E ^ 2 / 2) := mul_le_mul (by norm_num) (by linarith) (by linarith [cos_le_one E]) (by norm_num)
    nlinarith
  have hW : 11 / 100 * E ^ 3 ≤ E - e * sin E - f := by
    have a1 : e * sin E ≤ sin E := by nlinarith
    have a2 : E ^ 5 ≤ (8 / 5) ^ 2 * E ^ 3 := by
      have : E ^ 5 = E ^ 2 * E ^ 3 := by ring
      rw [this]
      exact mul_le_mul_of_nonneg_right hE2 (by positivity)
    nlinarith
  have hE3 : 0 < E ^ 3 := by positivity
  have hWp : 0 < E - e * sin E - f := by linarith
  have hdE : 1 / 10 ^ 5 < (E - e * sin E - f) / (1 - e * cos E) := by
    rw [lt_div_iff₀ hd]
    have : E ^ 3 = E * E ^ 2 := by ring
    nlinarith [mul_le_mul_of_nonneg_right (haE.trans' ha) (sq_nonneg E)]
  have hlow : 666 / 1000 * a * (1 - a ^ 2 / 8) ≤ E - (E - e * sin E - f) / (1 - e * cos E) := by
    have m : a * (1 - a ^ 2 / 8) ≤ E * (1 - E ^ 2 / 8) := by
      have : E * (1 - E ^ 2 / 8) - a * (1 - a ^ 2 / 8) = (E - a) * (1 - (E ^ 2 + E * a + a ^ 2) / 8) := by ring
      have h2 : 0 ≤ 1 - (E ^ 2 + E * a + a ^ 2) / 8 := by nlinarith
      nlinarith [mul_nonneg (sub_nonneg.2 haE) h2]
    have k : 666 / 1000 * (E * (1 - E ^ 2 / 8)) ≤ E - (E - e * sin E - f) / (1 - e * cos E) := by
      have : E - (E - e * sin E - f) / (1 - e * cos E) = (e * (sin E - E * cos E) + f) / (1 - e * cos E) := by
        field_simp
        ring
      rw [this, le_div_iff₀ hd]
      have hp : 0 ≤ E * (1 - E ^ 2 / 8) := mul_nonneg hE0.le (by nlinarith)
      have l1 : 666 / 1000 * (E * (1 - E ^ 2 / 8)) * (1 - e * cos E) ≤ 666 / 1000 * (E * (1 - E ^ 2 / 8)) * ((1 + 1 / 10 ^ 6) * (E ^ 2 / 2)) :=
        mul_le_mul_of_nonneg_left hD (by positivity)
      have l2 : E ^ 3 / 3 * (1 - E ^ 2 / 8) ≤ sin E - E * cos E := by
        have := mul_le_mul_of_nonneg_left c1 hE0.le
        nlinarith
      have l3 : e * (E ^ 3 / 3 * (1 - E ^ 2 / 8)) ≤ e * (sin E - E * cos E) := mul_le_mul_of_nonneg_left l2 h0
      have l4 : 666 / 1000 * (E * (1 - E ^ 2 / 8)) * ((1 + 1 / 10 ^ 6) * (E ^ 2 / 2)) ≤ e * (E ^ 3 / 3 * (1 - E ^ 2 / 8)) := by
        have hq : 0 ≤ E ^ 3 * (1 - E ^ 2 / 8) := mul_nonneg hE3.le (by nlinarith)
        rw [he]
        nlinarith
      linarith
    nlinarith
  exact ⟨hWp, hdE, hlow⟩

/-- One iteration far to the right of the root. -/
theorem slow_step {f err E lo hi a : ℝ} (n : ℕ) (hf0 : 0 ≤ f) (hf : f ≤ 7 / 10 ^ 13) (herr : err ≤ 1 / 10 ^ 5) (ha : 3 / 10 ^ 4 ≤ a) (haE : a ≤ E) (hE : E ≤ 8 / 5)
    (hlo : lo ≤ 1 / 10 ^ 5) : ∃ x, newton (1 - 1 / 10 ^ 15) f err (n + 1) E lo hi = newton (1 - 1 / 10 ^ 15) f err n x lo E ∧
      666 / 1000 * a * (1 - a ^ 2 / 8) ≤ x ∧ x ≤ E := by
  obtain ⟨e, he⟩ : ∃ e : ℝ, e = 1 - 1 / 10 ^ 15 := ⟨_, rfl⟩
  obtain ⟨hWp, hdE, hlow⟩ := slow_facts he hf0 hf ha haE hE
  rw [← he]
  refine ⟨E + -(E - e * sin E - f) / (1 - e * cos E), ?_, ?_, ?_⟩
  · rw [newton]
    have hno : ¬ (E + -(E - e * sin E - f) / (1 - e * cos E) < lo ∨ E + -(E - e * sin E - f) / (1 - e * cos E) > E) := by
      push Not
      rw [neg_div]
      constructor
      · refine le_trans ?_ (hlow.trans_eq (by ring))
        have : a ≤ 8 / 5 := haE.trans hE
        have ha2 : a ^ 2 ≤ (8 / 5) ^ 2 := pow_le_pow_left₀ (by linarith) this 2
        have h3 : 68 / 100 ≤ 1 - a ^ 2 / 8 := by linarith
        have h4 : 3 / 10 ^ 4 * (68 / 100) ≤ a * (1 - a ^ 2 / 8) := mul_le_mul ha h3 (by norm_num) (by linarith)
        linarith
      · linarith
    simp only [if_neg (not_lt.2 hWp.le), if_neg hno]
    rw [if_neg]
    push Not
    rw [neg_div, abs_neg, abs_of_pos (by linarith)]
    constructor <;> linarith
  · rw [neg_div]; linarith
  · rw [neg_div]; linarith

theorem slow_loop {f err : ℝ} (hf0 : 0 ≤ f) (hf : f ≤ 7 / 10 ^ 13) (herr : err ≤ 1 / 10 ^ 5) : ∀ (k j : ℕ) {E lo hi : ℝ}, k + j ≤ 17 →
    11 / 25 * (16 / 25) ^ j ≤ E → E ≤ 8 / 5 → lo ≤ 1 / 10 ^ 5 → newton (1 - 1 / 10 ^ 15) f err k E lo hi = none
  | 0, _, _, _, _, _, _, _, _ => rfl
  | k + 1, j, E, lo, hi, hk, h1, h2, h3 => by
    have hj : (16 / 25 : ℝ) ^ 16 ≤ (16 / 25) ^ j := pow_le_pow_of_le_one (by norm_num) (by norm_num) (by omega)
    have hj1 : (16 / 25 : ℝ) ^ j ≤ 1 := pow_le_one₀ (by norm_num) (by norm_num)
    have ha : 3 / 10 ^ 4 ≤ 11 / 25 * (16 / 25 : ℝ) ^ j := by
      have : 3 / 10 ^ 4 ≤ 11 / 25 * (16 / 25 : ℝ) ^ 16 := by norm_num
      linarith
    obtain ⟨x, hs, hx, hx'⟩ := slow_step k hf0 hf herr ha h1 h2 h3 (hi := hi)
    rw [hs]
    refine slow_loop hf0 hf herr k (j + 1) (by omega) ?_ (by linarith) h3
    refine le_trans ?_ hx
    rw [pow_succ]
    generalize (16 / 25 : ℝ) ^ j = p at ha hj1
    have hp : 0 < p := by linarith
    have hp2 : p ^ 2 ≤ 1 := pow_le_one₀ hp.le hj1
    nlinarith

theorem slow_all {f err : ℝ} (hf0 : 6 / 10 ^ 13 ≤ f) (hf : f ≤ 7 / 10 ^ 13) (herr : err ≤ 1 / 10 ^ 5) :
    newton (1 - 1 / 10 ^ 15) f err 20 (guess (1 - 1 / 10 ^ 15) f) (-π) π = none := by
  obtain ⟨e, he⟩ : ∃ e : ℝ, e = 1 - 1 / 10 ^ 15 := ⟨_, rfl⟩
  have h0 : 0 ≤ e := by rw [he]; norm_num
  have h1 : e < 1 := by rw [he]; norm_num
  have hp3 := pi_gt_d2
  have hp4 := pi_lt_d2
  have hlg := le_guess h0 h1 (f := f) ⟨by linarith, by linarith⟩
  have hsf := sin_le (show 0 ≤ f by linarith)
  have hsf0 : 0 ≤ sin f := sin_nonneg_of_nonneg_of_le_pi (by linarith) (by linarith)
  have hg : guess e f ≤ 4 * f := by
    unfold guess
    have : e * (1 + e * (cos f + 1 / 2 * e * (3 * cos f * cos f - 1))) ≤ 3 := by
      have c1 := cos_le_one f
      have c2 := neg_one_le_cos f
      have k1 : cos f * cos f ≤ 1 := by nlinarith
      have k2 : 1 / 2 * e * (3 * cos f * cos f - 1) ≤ 1 := by nlinarith
      have k3 : e * (cos f + 1 / 2 * e * (3 * cos f * cos f - 1)) ≤ 2 := by nlinarith
      nlinarith
    have := mul_le_mul_of_nonneg_left this hsf0
    nlinarith
  have hstep : newton e f err 20 (guess e f) (-π) π = newton e f err 19 (guess e f + 1 / 2 * (π - guess e f)) (guess e f) π := by
    generalize guess e f = E at hlg hg
    have hE0 : 0 ≤ E := by linarith
    have hd := den_pos h0 h1 E
    have s1 := sin_ge_sub_cube hE0
    have c2 := one_sub_sq_div_two_le_cos (x := E)
    have hE1 : E ≤ 28 / 10 ^ 13 := by linarith
    have hE2 : E ^ 2 ≤ (28 / 10 ^ 13) ^ 2 := pow_le_pow_left₀ hE0 hE1 2
    have hE3 : E ^ 3 ≤ (28 / 10 ^ 13) ^ 3 := pow_le_pow_left₀ hE0 hE1 3
    have hW : E - e * sin E - f ≤ -(3 / 10 ^ 13) := by
      have : e * sin E = sin E - (1 - e) * sin E := by ring
      have k : (1 - e) * sin E ≤ (1 - e) * E := mul_le_mul_of_nonneg_left (sin_le hE0) (by linarith)
      rw [this, he] at *
      nlinarith
    have hD : 1 - e * cos E ≤ 2 / 10 ^ 15 := by
      have : 1 - e * cos E = (1 - e) + e * (1 - cos E) := by ring
      have k : e * (1 - cos E) ≤ 1 * (E ^ 2 / 2) := mul_le_mul h1.le (by linarith) (by linarith [cos_le_one E]) (by norm_num)
      rw [this]
      rw [he] at *
      nlinarith
    have hdE : 4 < -(E - e * sin E - f) / (1 - e * cos E) := by
      rw [lt_div_iff₀ hd]
      nlinarith
    rw [newton]
    have ho : E + -(E - e * sin E - f) / (1 - e * cos E) < E ∨ E + -(E - e * sin E - f) / (1 - e * cos E) > π := Or.inr (by linarith)
    simp only [if_pos (show E - e * sin E - f < 0 by linarith), if_pos ho]
    rw [if_neg]
    push Not
    rw [abs_of_pos (by linarith)]
    constructor
    · linarith
    · intro h; linarith
  rw [← he, hstep, he]
  rw [he] at hg hlg
  generalize guess (1 - 1 / 10 ^ 15) f = E at hlg hg
  have hE1 : E ≤ 28 / 10 ^ 13 := by linarith
  obtain ⟨x, hs, hx, hx'⟩ := slow_step (hi := π) (lo := E) (E := E + 1 / 2 * (π - E)) (a := 157 / 100) 18 (by linarith) hf herr (by norm_num) (by linarith) (by linarith) (by linarith)
  rw [hs]
  norm_num at hx
  obtain ⟨y, hs, hy, hy'⟩ := slow_step (hi := E + 1 / 2 * (π - E)) (lo := E) (E := x) (a := 18 / 25) 17 (by linarith) hf herr (by norm_num) (by linarith) (by linarith) (by linarith)
  rw [hs]
  norm_num at hy
  exact slow_loop (by linarith) hf herr 17 0 (by norm_num) (by norm_num; linarith) (by linarith) (by linarith)

end Verif.Signals.Kepler
