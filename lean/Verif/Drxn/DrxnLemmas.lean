import Verif.Drxn.Drxn
import Verif.Drxn.SphereLemmas
import Mathlib.Analysis.Complex.ExponentialBounds
import Mathlib.Analysis.SpecialFunctions.Log.Deriv
import Mathlib.Analysis.SpecialFunctions.Trigonometric.DerivHyp

/-!
# Lemmas on the model of drxn.py
-/

set_option linter.unusedSectionVars false

namespace Verif.Drxn

open Verif Real

theorem dot3_eq (u v : V3) : dot3 u v = u 0 * v 0 + u 1 * v 1 + u 2 * v 2 := by unfold dot3; rw [Fin.sum_univ_three]

theorem angVec_eq (a b : ℝ) : angVec a b = dirOf a b := rfl

theorem dirOf_unit (a b : ℝ) : IsUnit3 (dirOf a b) := by
  unfold IsUnit3
  rw [dot3_eq]
  show cos a * cos b * (cos a * cos b) + sin a * cos b * (sin a * cos b) + sin b * sin b = 1
  nlinarith [sin_sq_add_cos_sq a, sin_sq_add_cos_sq b]

/-- Lagrange's identity, and so the inequality of Cauchy and Schwarz. -/
theorem dot3_sq (u v : V3) : dot3 u v ^ 2 ≤ dot3 u u * dot3 v v := by
  rw [dot3_eq, dot3_eq, dot3_eq]
  nlinarith [sq_nonneg (u 0 * v 1 - u 1 * v 0), sq_nonneg (u 0 * v 2 - u 2 * v 0), sq_nonneg (u 1 * v 2 - u 2 * v 1)]

theorem dot3_self_nonneg (u : V3) : 0 ≤ dot3 u u := by rw [dot3_eq]; nlinarith [mul_self_nonneg (u 0), mul_self_nonneg (u 1), mul_self_nonneg (u 2)]

theorem norm3_eq (t : V3) : norm3 t = √(dot3 t t) := by unfold norm3; rw [dot3_eq]; congr 1; ring

theorem norm3_nonneg (t : V3) : 0 ≤ norm3 t := sqrt_nonneg _

theorem norm3_sq (t : V3) : dot3 t t = norm3 t ^ 2 := by rw [norm3_eq, sq_sqrt (dot3_self_nonneg t)]

theorem dot3_le (t n : V3) (hn : IsUnit3 n) : dot3 t n ≤ norm3 t := by
  have h := dot3_sq t n
  rw [hn, mul_one, norm3_sq] at h
  exact (le_abs_self _).trans (abs_le_of_sq_le_sq h (norm3_nonneg t))

theorem dot3_smul (c : ℝ) (u v : V3) : dot3 (fun i => c * u i) v = c * dot3 u v := by rw [dot3_eq, dot3_eq]; ring

theorem dot3_comm (u v : V3) : dot3 u v = dot3 v u := by rw [dot3_eq, dot3_eq]; ring

/-! ### The function log(sinh(x)/x) -/

theorem log_one_sub (q : ℝ) (h0 : 0 < q) (h1 : q ≤ 1 / 2) : 0 ≤ -log (1 - q) - q ∧ -log (1 - q) - q ≤ q ^ 2 := by
  have hp : 0 < 1 - q := by linarith
  refine ⟨?_, ?_⟩
  · have := log_le_sub_one_of_pos hp; linarith
  · have h := quadratic_le_exp_of_nonneg (show 0 ≤ q + q ^ 2 by positivity)
    have h2 : 1 ≤ (1 - q) * exp (q + q ^ 2) := by
      have h3 := mul_le_mul_of_nonneg_left h hp.le
      have h4 : 1 ≤ (1 - q) * (1 + (q + q ^ 2) + (q + q ^ 2) ^ 2 / 2) := by
        have : 0 ≤ q ^ 2 * ((1 - q) * (1 + q) ^ 2 / 2 - q) := by
          refine mul_nonneg (sq_nonneg _) ?_
          nlinarith [mul_nonneg h0.le (by linarith : (0 : ℝ) ≤ 1 / 2 - q), mul_nonneg (mul_nonneg h0.le h0.le) (by linarith : (0 : ℝ) ≤ 1 / 2 - q)]
        nlinarith
      linarith
    have h5 := log_nonneg h2
    rw [log_mul hp.ne' (exp_pos _).ne', log_exp] at h5
    linarith

theorem sinh_form (x : ℝ) (hx : 0 < x) : log (sinh x / x) = x - log 2 - log x + log (1 - exp (-2 * x)) := by
  have h1 : sinh x = exp x * (1 - exp (-2 * x)) / 2 := by
    rw [sinh_eq, mul_sub, ← exp_add]; ring_nf
  have h2 : 0 < 1 - exp (-2 * x) := by
    have : exp (-2 * x) < 1 := by rw [exp_lt_one_iff]; linarith
    linarith
  rw [h1, log_div (by positivity) hx.ne', log_div (by positivity) two_ne_zero, log_mul (exp_pos _).ne' h2.ne', log_exp]
  ring

theorem log2s_near : |log 2 - log2s| ≤ 3 / 10 ^ 9 := by
  have h := log_two_near_10
  unfold log2s
  rw [abs_le] at h ⊢
  constructor <;> [have := h.1; have := h.2] <;> norm_num at this ⊢ <;> linarith

theorem exp_small (x : ℝ) (hx : 7 / 20 ≤ x) : exp (-2 * x) ≤ 1 / 2 := by
  have h : log 2 < 7 / 10 := by have := log_two_lt_d9; linarith
  calc exp (-2 * x) ≤ exp (-log 2) := exp_le_exp.2 (by linarith)
    _ = 1 / 2 := by rw [exp_neg, exp_log two_pos, one_div]

theorem lsinhc_near (x : ℝ) (hx : 7 / 20 ≤ x) : ∃ v, lsinhc x = .num v ∧ |v - log (sinh x / x)| ≤ lsErr x := by
  have h0 : 0 < x := by linarith
  have hq := log_one_sub (exp (-2 * x)) (exp_pos _) (exp_small x hx)
  have hl := abs_le.1 log2s_near
  unfold lsinhc lsErr
  rw [if_neg (not_lt.2 h0.le), if_neg h0.ne', sinh_form x h0]
  by_cases h20 : x < 20
  · rw [if_pos h20, if_pos h20]
    refine ⟨_, rfl, ?_⟩
    have h4 : exp (-2 * x) ^ 2 = exp (-4 * x) := by rw [← exp_nat_mul]; ring_nf
    rw [h4] at hq
    rw [abs_le]
    constructor <;> linarith [hl.1, hl.2, hq.1, hq.2, exp_pos (-4 * x)]
  · rw [if_neg h20, if_neg h20]
    refine ⟨_, rfl, ?_⟩
    have h4 : exp (-2 * x) ≤ exp (-40) := exp_le_exp.2 (by linarith)
    have h5 : exp (-2 * x) ^ 2 ≤ exp (-2 * x) := by
      have := exp_small x hx
      nlinarith [exp_pos (-2 * x)]
    rw [abs_le]
    constructor <;> linarith [hl.1, hl.2, hq.1, hq.2, exp_pos (-40), exp_pos (-2 * x)]

/-! ### Directions the constructor makes -/

theorem mkDir_unit {lng lat ra dec : Option ℝ} {deg : Bool} {uvec : Option V3} {d : Dir} (h : mkDir lng lat ra dec deg uvec = .ok d)
    (hu : ∀ u, uvec = some u → IsUnit3 u) : IsUnit3 d.uvec := by
  unfold mkDir at h
  cases uvec with
  | some u =>
    simp only at h
    split at h
    · cases h
    · cases h; exact hu u rfl
  | none =>
    cases lng <;> cases lat <;> cases ra <;> cases dec <;> simp at h <;> subst h <;> exact dirOf_unit _ _

theorem mkFDir_facts {sig lng lat ra dec : Option ℝ} {deg : Bool} {uvec : Option V3} {kappa : Option ℝ} {d : FDir}
    (h : mkFDir sig lng lat ra dec deg uvec kappa = .ok d) (hu : ∀ u, uvec = some u → IsUnit3 u) :
    IsUnit3 d.uvec ∧ d.lsk = lsinhc d.kappa := by
  unfold mkFDir at h
  split at h
  · cases h
  · rename_i e he
    have hun := mkDir_unit he hu
    split at h
    · cases h; exact ⟨hun, rfl⟩
    · split at h
      · cases h
      · split at h <;> cases h
        exact ⟨hun, rfl⟩

/-! ### Sums over lists of directions -/

/-- Concentration and unit vector. -/
def FDir.meas (d : FDir) : ℝ × V3 := (d.kappa, d.uvec)

theorem total_aux (l : List FDir) (t : V3) (n : V3) :
    dot3 (l.foldl (fun t d => fun i => t i + d.kappa * d.uvec i) t) n = dot3 t n + (l.map fun d => d.kappa * dot3 d.uvec n).sum := by
  induction l generalizing t with
  | nil => simp
  | cons d l ih =>
    rw [List.foldl_cons, ih, List.map_cons, List.sum_cons]
    have : dot3 (fun i => t i + d.kappa * d.uvec i) n = dot3 t n + d.kappa * dot3 d.uvec n := by rw [dot3_eq, dot3_eq, dot3_eq]; ring
    rw [this]; ring

theorem dot3_total (l : List FDir) (n : V3) : dot3 (total l) n = (l.map fun d => d.kappa * dot3 d.uvec n).sum := by
  unfold total
  rw [total_aux]
  have : dot3 (fun _ => 0) n = 0 := by rw [dot3_eq]; ring
  rw [this, zero_add]

theorem kSum_aux (l : List FDir) (t : ℝ) : l.foldl (fun t d => t + d.kappa) t = t + (l.map FDir.kappa).sum := by
  induction l generalizing t with
  | nil => simp
  | cons d l ih => rw [List.foldl_cons, ih, List.map_cons, List.sum_cons]; ring

theorem kSum_eq (l : List FDir) : kSum l = (l.map FDir.kappa).sum := by unfold kSum; rw [kSum_aux, zero_add]

theorem prod_fisher (l : List FDir) (n : V3) : ((l.map FDir.meas).map fun d => fisher d.1 d.2 n).prod = exp (dot3 (total l) n) := by
  rw [dot3_total]
  induction l with
  | nil => simp
  | cons d l ih => rw [List.map_cons, List.map_cons, List.prod_cons, ih, List.map_cons, List.sum_cons, exp_add]; rfl

theorem lack_eq (l : List FDir) (hl : ∀ d ∈ l, IsUnit3 d.uvec) (n : V3) : lack (l.map FDir.meas) n = kSum l - dot3 (total l) n := by
  rw [dot3_total, kSum_eq]
  unfold lack
  induction l with
  | nil => simp
  | cons d l ih =>
    rw [List.map_cons, List.map_cons, List.sum_cons, ih (fun e he => hl e (List.mem_cons_of_mem _ he)), List.map_cons, List.sum_cons, List.map_cons, List.sum_cons]
    have : log (fisher d.meas.1 d.meas.2 d.meas.2 / fisher d.meas.1 d.meas.2 n) = d.kappa - d.kappa * dot3 d.uvec n := by
      unfold fisher FDir.meas
      rw [← exp_sub, log_exp]
      rw [show dot3 d.uvec d.uvec = 1 from hl d List.mem_cons_self]; ring
    rw [this]; ring

theorem sphAvg_fisher (κ : ℝ) (u : V3) (hk : 0 < κ) (hu : IsUnit3 u) : sphAvg (fisher κ u) = sinh κ / κ := by
  have h := sphAvg_exp (fun i => κ * u i) κ hk (by rw [dot3_smul, dot3_comm, dot3_smul, hu]; ring)
  rw [← h]
  congr 1
  funext n
  unfold fisher
  rw [dot3_smul]

theorem bayes_eq (l : List FDir) (hl : ∀ d ∈ l, IsUnit3 d.uvec) (hk : ∀ d ∈ l, 0 < d.kappa) (ht : 0 < norm3 (total l)) :
    bayes (l.map FDir.meas) = (sinh (norm3 (total l)) / norm3 (total l)) / (l.map fun d => sinh d.kappa / d.kappa).prod := by
  unfold bayes
  congr 1
  · rw [← sphAvg_exp (total l) _ ht (norm3_sq _)]
    congr 1
    funext n
    exact prod_fisher l n
  · congr 1
    rw [List.map_map]
    refine List.map_congr_left fun d hd => ?_
    exact sphAvg_fisher _ _ (hk d hd) (hl d hd)

theorem sinhc_pos (x : ℝ) (hx : 0 < x) : 0 < sinh x / x := div_pos (sinh_pos_iff.2 hx) hx

theorem log_prod (l : List FDir) (hk : ∀ d ∈ l, 0 < d.kappa) :
    0 < (l.map fun d => sinh d.kappa / d.kappa).prod ∧
    log (l.map fun d => sinh d.kappa / d.kappa).prod = (l.map fun d => log (sinh d.kappa / d.kappa)).sum := by
  induction l with
  | nil => simp
  | cons d l ih =>
    obtain ⟨h1, h2⟩ := ih fun e he => hk e (List.mem_cons_of_mem _ he)
    have h3 := sinhc_pos _ (hk d List.mem_cons_self)
    rw [List.map_cons, List.prod_cons, List.map_cons, List.sum_cons]
    exact ⟨mul_pos h3 h1, by rw [log_mul h3.ne' h1.ne', h2]⟩

theorem minusLsks_near (l : List FDir) (hl : ∀ d ∈ l, d.lsk = lsinhc d.kappa) (hk : ∀ d ∈ l, 7 / 20 ≤ d.kappa) (x y e : ℝ) (h : |x - y| ≤ e) :
    ∃ v, minusLsks l (.num x) = .num v ∧
      |v - (y - (l.map fun d => log (sinh d.kappa / d.kappa)).sum)| ≤ e + (l.map fun d => lsErr d.kappa).sum := by
  induction l generalizing x y e with
  | nil => exact ⟨x, rfl, by simpa using h⟩
  | cons d l ih =>
    obtain ⟨v, hv, he⟩ := lsinhc_near _ (hk d List.mem_cons_self)
    have hd := hl d List.mem_cons_self
    obtain ⟨w, hw, hwe⟩ := ih (fun e he => hl e (List.mem_cons_of_mem _ he)) (fun e he => hk e (List.mem_cons_of_mem _ he))
      (x - v) (y - log (sinh d.kappa / d.kappa)) (e + lsErr d.kappa) (by
        rw [abs_le] at h he ⊢
        constructor <;> linarith [h.1, h.2, he.1, he.2])
    refine ⟨w, ?_, ?_⟩
    · rw [← hw]
      show minusLsks l ((Fl.num x).sub d.lsk) = _
      rw [hd, hv]; rfl
    · rw [List.map_cons, List.sum_cons, List.map_cons, List.sum_cons, ← sub_sub, ← add_assoc]; exact hwe

instance : RightCommutative fun (t : Fl) (d : FDir) => t.sub d.lsk := ⟨by
  intro x a b
  rcases x with _ | _ | _ <;> rcases ha : a.lsk with _ | _ | _ <;> rcases hb : b.lsk with _ | _ | _ <;> simp [Fl.sub] <;> ring⟩

end Verif.Drxn
