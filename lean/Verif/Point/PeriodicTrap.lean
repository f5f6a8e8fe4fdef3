import Verif.Point.PeriodicInt

/-!
# Periodic point processes: the trapezoid sum, and the sizes of the integrands
-/

set_option linter.unusedSectionVars false

namespace Verif.Point

open Real MeasureTheory

/-! ## The integrands -/

/-- The product of the factorials of the counts. -/
def facts (bins : List ℕ) : ℕ := (bins.map Nat.factorial).prod

/-- The usual chi-squared of counts against equal expectations. -/
noncomputable def chi2 (bins : List ℕ) : ℝ := (bins.map fun b : ℕ => ((b : ℝ) - (bins.sum : ℝ) / bins.length) ^ 2 / ((bins.sum : ℝ) / bins.length)).sum

theorem foldl_sum {α : Type*} (f : α → ℝ) (l : List α) (x : ℝ) : l.foldl (fun s b => s + f b) x = x + (l.map f).sum := by
  induction l generalizing x with
  | nil => simp
  | cons a l ih => rw [List.foldl_cons, ih, List.map_cons, List.sum_cons, add_assoc]

theorem plimult_eq (bins : List ℕ) : plimult bins = (bins.map factln).sum := by
  unfold plimult
  rw [foldl_sum, zero_add]

theorem chisqr_eq (bins : List ℕ) : chisqr bins.sum bins = chi2 bins := by
  unfold chisqr chi2
  simp only
  rw [foldl_sum (fun b : ℕ => ((b : ℝ) - (bins.sum : ℝ) / bins.length) ^ 2), zero_add, div_eq_mul_inv, ← List.sum_map_mul_right]
  simp only [div_eq_mul_inv]

theorem plimult_perm {a b : List ℕ} (h : a.Perm b) : plimult a = plimult b := by
  rw [plimult_eq, plimult_eq]
  exact (h.map _).sum_eq

theorem chisqr_perm (n : ℕ) {a b : List ℕ} (h : a.Perm b) : chisqr n a = chisqr n b := by
  unfold chisqr
  simp only
  rw [foldl_sum (fun c : ℕ => ((c : ℝ) - (n : ℝ) / a.length) ^ 2), foldl_sum (fun c : ℕ => ((c : ℝ) - (n : ℝ) / b.length) ^ 2), h.length_eq]
  rw [(h.map _).sum_eq]

theorem facts_pos (bins : List ℕ) : 0 < facts bins := by
  unfold facts
  induction bins with
  | nil => simp
  | cons a l ih =>
    rw [List.map_cons, List.prod_cons]
    exact Nat.mul_pos (Nat.factorial_pos a) ih

theorem facts_le (bins : List ℕ) : facts bins ≤ bins.sum.factorial := by
  unfold facts
  induction bins with
  | nil => simp
  | cons a l ih =>
    rw [List.map_cons, List.prod_cons, List.sum_cons]
    exact (Nat.mul_le_mul_left _ ih).trans (Nat.le_of_dvd (Nat.factorial_pos _) (Nat.factorial_mul_factorial_dvd_factorial_add a l.sum))

/-- The accuracy of the logarithms of factorials. -/
noncomputable def ε : ℝ := 3 / 10 ^ 10

theorem factln_near (n : ℕ) : |factln n - log n.factorial| ≤ ε := OnOff.C107_gammln n

theorem plimult_near (bins : List ℕ) : |plimult bins - log (facts bins)| ≤ bins.length * ε := by
  rw [plimult_eq]
  induction bins with
  | nil => simp [facts]
  | cons a l ih =>
    have h : log (facts (a :: l)) = log a.factorial + log (facts l) := by
      have h1 : facts (a :: l) = a.factorial * facts l := by simp [facts]
      rw [h1, Nat.cast_mul, log_mul (Nat.cast_ne_zero.2 (Nat.factorial_pos a).ne') (Nat.cast_ne_zero.2 (facts_pos l).ne')]
    have ha := factln_near a
    rw [h, List.map_cons, List.sum_cons, List.length_cons]
    push_cast
    rw [abs_le] at *
    constructor <;> linarith [ha.1, ha.2, ih.1, ih.2]

theorem integrand_eq (bins : List ℕ) (lndfac lfac : ℝ) : exp (plimult bins - lndfac + lfac) = exp (plimult bins - log (facts bins)) * (exp (lfac - lndfac) * facts bins) := by
  have : (facts bins : ℝ) = exp (log (facts bins)) := (exp_log (Nat.cast_pos.2 (facts_pos bins))).symm
  conv_rhs => rw [this]
  rw [← exp_add, ← exp_add]
  simp only [log_exp]
  congr 1
  ring

theorem integrand_le (bins : List ℕ) (lndfac lfac : ℝ) : exp (plimult bins - lndfac + lfac) ≤ exp (bins.length * ε) * (exp (lfac - lndfac) * facts bins) := by
  rw [integrand_eq]
  have := (abs_le.1 (plimult_near bins)).2
  gcongr

theorem le_integrand (bins : List ℕ) (lndfac lfac : ℝ) : exp (-(bins.length * ε)) * (exp (lfac - lndfac) * facts bins) ≤ exp (plimult bins - lndfac + lfac) := by
  rw [integrand_eq]
  have := (abs_le.1 (plimult_near bins)).1
  gcongr

theorem one_sub_exp_neg (x : ℝ) : 1 - exp (-x) ≤ exp x - 1 := by
  have h1 := exp_pos x
  have h2 := exp_pos (-x)
  have h3 : exp x * exp (-x) = 1 := by rw [← exp_add]; simp
  nlinarith [sq_nonneg (exp x - 1)]

/-- The approximate integrand against the exact one. -/
theorem integrand_near (bins : List ℕ) (lndfac lfac : ℝ) :
    |exp (plimult bins - lndfac + lfac) - exp (lfac - lndfac) * facts bins| ≤ (exp (bins.length * ε) - 1) * (exp (lfac - lndfac) * facts bins) := by
  have h1 := integrand_le bins lndfac lfac
  have h2 := le_integrand bins lndfac lfac
  have h3 := one_sub_exp_neg (bins.length * ε)
  have h0 : 0 ≤ exp (lfac - lndfac) * facts bins := by positivity
  rw [abs_le]
  constructor <;> nlinarith

/-- The largest possible value of the integrand. -/
noncomputable def top (nb N : ℕ) (lndfac lfac : ℝ) : ℝ := exp (nb * ε) * (exp (lfac - lndfac) * N.factorial)

theorem top_pos (nb N : ℕ) (lndfac lfac : ℝ) : 0 < top nb N lndfac lfac := by
  have := Nat.factorial_pos N
  unfold top
  positivity

theorem integrand_top {nb : ℕ} (hn : 0 < nb) (phases : List ℝ) (lndfac lfac u : ℝ) : exp (plimult (counts nb phases u) - lndfac + lfac) ≤ top nb phases.length lndfac lfac := by
  refine (integrand_le _ _ _).trans ?_
  have h := facts_le (counts nb phases u)
  rw [counts_sum hn] at h
  have h' : (facts (counts nb phases u) : ℝ) ≤ phases.length.factorial := by exact_mod_cast h
  rw [counts_length]
  unfold top
  gcongr

theorem integrand_osc {nb : ℕ} (hn : 0 < nb) (phases : List ℝ) (lndfac lfac u v : ℝ) :
    |exp (plimult (counts nb phases u) - lndfac + lfac) - exp (plimult (counts nb phases v) - lndfac + lfac)| ≤ top nb phases.length lndfac lfac := by
  have h1 := integrand_top hn phases lndfac lfac u
  have h2 := integrand_top hn phases lndfac lfac v
  have h3 := exp_pos (plimult (counts nb phases u) - lndfac + lfac)
  have h4 := exp_pos (plimult (counts nb phases v) - lndfac + lfac)
  rw [abs_le]
  constructor <;> linarith

theorem scaled_osc {nb : ℕ} (hn : 0 < nb) (phases : List ℝ) (lndfac lfac u v : ℝ) :
    |exp (lfac - lndfac) * (facts (counts nb phases u) : ℝ) - exp (lfac - lndfac) * facts (counts nb phases v)| ≤ exp (lfac - lndfac) * phases.length.factorial := by
  have h : ∀ u, exp (lfac - lndfac) * (facts (counts nb phases u) : ℝ) ≤ exp (lfac - lndfac) * phases.length.factorial := by
    intro u
    have h := facts_le (counts nb phases u)
    rw [counts_sum hn] at h
    have h' : (facts (counts nb phases u) : ℝ) ≤ phases.length.factorial := by exact_mod_cast h
    gcongr
  have h3 : ∀ u, 0 ≤ exp (lfac - lndfac) * (facts (counts nb phases u) : ℝ) := fun u => by positivity
  rw [abs_le]
  constructor <;> linarith [h u, h v, h3 u, h3 v]

theorem chi2_nonneg (bins : List ℕ) : 0 ≤ chi2 bins := by
  unfold chi2
  apply List.sum_nonneg
  intro x hx
  obtain ⟨b, _, rfl⟩ := List.mem_map.1 hx
  positivity

theorem sum_sq_le (l : List ℕ) : (l.map fun b : ℕ => (b : ℝ) ^ 2).sum ≤ (l.sum : ℝ) ^ 2 := by
  induction l with
  | nil => simp
  | cons a l ih =>
    rw [List.map_cons, List.sum_cons, List.sum_cons]
    push_cast
    have : (0 : ℝ) ≤ a * (l.sum : ℕ) := by positivity
    push_cast at ih
    push_cast at this
    nlinarith

theorem sum_sub_sq (l : List ℕ) (e : ℝ) : (l.map fun b : ℕ => ((b : ℝ) - e) ^ 2).sum = (l.map fun b : ℕ => (b : ℝ) ^ 2).sum - 2 * e * (l.sum : ℕ) + l.length * e ^ 2 := by
  induction l with
  | nil => simp
  | cons a l ih =>
    simp only [List.map_cons, List.sum_cons, ih, List.length_cons]
    push_cast
    ring

theorem chi2_le {bins : List ℕ} (h : 0 < bins.sum) (hl : 0 < bins.length) : chi2 bins ≤ bins.sum * (bins.length - 1) := by
  have hs : (0 : ℝ) < (bins.sum : ℕ) := Nat.cast_pos.2 h
  have hl' : (0 : ℝ) < bins.length := Nat.cast_pos.2 hl
  have h1 := sum_sq_le bins
  have h2 := sum_sub_sq bins ((bins.sum : ℕ) / bins.length)
  have e : chi2 bins = (bins.map fun b : ℕ => ((b : ℝ) - (bins.sum : ℕ) / bins.length) ^ 2).sum / (((bins.sum : ℕ) : ℝ) / bins.length) := by
    unfold chi2
    simp only [div_eq_mul_inv _ (((bins.sum : ℕ) : ℝ) / bins.length)]
    rw [List.sum_map_mul_right]
  rw [e, h2, div_le_iff₀ (by positivity)]
  have : ((bins.sum : ℕ) : ℝ) * (bins.length - 1) * (((bins.sum : ℕ) : ℝ) / bins.length) = ((bins.sum : ℕ) : ℝ) ^ 2 - 2 * (((bins.sum : ℕ) : ℝ) / bins.length) * (bins.sum : ℕ) + bins.length * (((bins.sum : ℕ) : ℝ) / bins.length) ^ 2 := by
    field_simp
    ring
  rw [this]
  linarith

theorem chisqr_counts {nb : ℕ} (hn : 0 < nb) (phases : List ℝ) (u : ℝ) : chisqr phases.length (counts nb phases u) = chi2 (counts nb phases u) := by
  rw [← chisqr_eq, counts_sum hn]

theorem chisqr_bounds {nb : ℕ} (hn : 0 < nb) {phases : List ℝ} (u : ℝ) : 0 ≤ chisqr phases.length (counts nb phases u) ∧ chisqr phases.length (counts nb phases u) ≤ phases.length * (nb - 1) := by
  rw [chisqr_counts hn]
  refine ⟨chi2_nonneg _, ?_⟩
  rcases Nat.eq_zero_or_pos phases.length with h | h
  · have h0 : (counts nb phases u).sum = 0 := by rw [counts_sum hn, h]
    unfold chi2
    simp [h0, h]
  · have := chi2_le (bins := counts nb phases u) (by rw [counts_sum hn]; exact h) (by rw [counts_length]; exact hn)
    rwa [counts_sum hn, counts_length] at this

theorem chisqr_osc {nb : ℕ} (hn : 0 < nb) (phases : List ℝ) (u v : ℝ) : |chisqr phases.length (counts nb phases u) - chisqr phases.length (counts nb phases v)| ≤ phases.length * (nb - 1) := by
  have h1 := chisqr_bounds hn (phases := phases) u
  have h2 := chisqr_bounds hn (phases := phases) v
  rw [abs_le]
  constructor <;> linarith [h1.1, h1.2, h2.1, h2.2]

/-! ## The trapezoid sum -/

/-- How many boundaries have been crossed. -/
noncomputable def crossed (nb : ℕ) (phases : List ℝ) (phi : ℝ) : ℤ := (phases.map fun p => ⌊nb * (p + phi / twopi)⌋).sum

theorem crossed_mono {nb : ℕ} (phases : List ℝ) {phi psi : ℝ} (h : phi ≤ psi) : crossed nb phases phi ≤ crossed nb phases psi := by
  have := twopi_pos
  unfold crossed
  apply List.sum_le_sum
  intro p _
  apply Int.floor_le_floor
  gcongr

theorem crossed_lt {nb : ℕ} (hn : 0 < nb) {phases : List ℝ} {phi psi : ℝ} (h : phi ≤ psi) (hne : ∃ p ∈ phases, dist nb (p + phi / twopi) ≤ psi / twopi - phi / twopi) :
    crossed nb phases phi + 1 ≤ crossed nb phases psi := by
  have tp := twopi_pos
  have hn' : (0 : ℝ) < nb := Nat.cast_pos.2 hn
  obtain ⟨p, hp, hd⟩ := hne
  induction phases with
  | nil => simp at hp
  | cons q l ih =>
    have hq : ⌊nb * (q + phi / twopi)⌋ ≤ ⌊nb * (q + psi / twopi)⌋ := by
      apply Int.floor_le_floor
      gcongr
    have hl := crossed_mono (nb := nb) l h
    unfold crossed at *
    rw [List.map_cons, List.map_cons, List.sum_cons, List.sum_cons]
    rcases List.mem_cons.1 hp with rfl | hp
    · have : ⌊nb * (p + phi / twopi)⌋ + 1 ≤ ⌊nb * (p + psi / twopi)⌋ := by
        rw [Int.le_floor]
        push_cast
        unfold dist at hd
        rw [div_le_iff₀ hn'] at hd
        nlinarith
      omega
    · have := ih hp
      omega

theorem crossed_le {nb : ℕ} (phases : List ℝ) {phi psi : ℝ} (k : ℕ) (h : nb * (psi / twopi) - nb * (phi / twopi) ≤ k) : crossed nb phases psi ≤ crossed nb phases phi + k * phases.length := by
  unfold crossed
  induction phases with
  | nil => simp
  | cons q l ih =>
    rw [List.map_cons, List.map_cons, List.sum_cons, List.sum_cons, List.length_cons]
    have : ⌊nb * (q + psi / twopi)⌋ ≤ ⌊nb * (q + phi / twopi)⌋ + k := by
      have h1 : (nb : ℝ) * (q + psi / twopi) ≤ nb * (q + phi / twopi) + ((k : ℤ) : ℝ) := by
        push_cast
        linarith
      calc ⌊nb * (q + psi / twopi)⌋ ≤ ⌊nb * (q + phi / twopi) + ((k : ℤ) : ℝ)⌋ := Int.floor_le_floor h1
        _ = _ := by rw [Int.floor_add_intCast]
    push_cast
    linarith

/-- One interval of the trapezoid rule. -/
theorem trap_one {nb : ℕ} (hn : 0 < nb) {phases : List ℝ} {G : List ℕ → ℝ} {M : ℝ} (hM : ∀ u v, |G (counts nb phases u) - G (counts nb phases v)| ≤ M) {phi h : ℝ} (h0 : 0 ≤ h) :
    |h * (0.5 * G (counts nb phases (phi / twopi)) + 0.5 * G (counts nb phases ((phi + h) / twopi))) - ∫ φ in phi..phi + h, G (counts nb phases (φ / twopi))| ≤
      (crossed nb phases (phi + h) - crossed nb phases phi : ℤ) * (M * h) := by
  have tp := twopi_pos
  have hM0 : 0 ≤ M := (abs_nonneg _).trans (hM 0 0)
  have hI := integrable_counts (G := G) hM
  by_cases hc : ∃ p ∈ phases, dist nb (p + phi / twopi) ≤ (phi + h) / twopi - phi / twopi
  · have h1 := crossed_lt hn (by linarith : phi ≤ phi + h) hc
    have h2 : (1 : ℝ) ≤ ((crossed nb phases (phi + h) - crossed nb phases phi : ℤ) : ℝ) := by exact_mod_cast (by omega : (1 : ℤ) ≤ crossed nb phases (phi + h) - crossed nb phases phi)
    have e : h * (0.5 * G (counts nb phases (phi / twopi)) + 0.5 * G (counts nb phases ((phi + h) / twopi))) - ∫ φ in phi..phi + h, G (counts nb phases (φ / twopi)) =
        ∫ φ in phi..phi + h, ((0.5 * G (counts nb phases (phi / twopi)) + 0.5 * G (counts nb phases ((phi + h) / twopi))) - G (counts nb phases (φ / twopi))) := by
      rw [intervalIntegral.integral_sub (by simp) (hI _ _), intervalIntegral.integral_const, smul_eq_mul]
      ring
    rw [e]
    have h3 : |∫ φ in phi..phi + h, ((0.5 * G (counts nb phases (phi / twopi)) + 0.5 * G (counts nb phases ((phi + h) / twopi))) - G (counts nb phases (φ / twopi)))| ≤ M * |phi + h - phi| := by
      rw [← Real.norm_eq_abs]
      apply intervalIntegral.norm_integral_le_of_norm_le_const
      intro φ _
      have a := abs_le.1 (hM (phi / twopi) (φ / twopi))
      have b := abs_le.1 (hM ((phi + h) / twopi) (φ / twopi))
      rw [Real.norm_eq_abs, abs_le]
      constructor <;> norm_num <;> linarith [a.1, a.2, b.1, b.2]
    rw [add_sub_cancel_left, abs_of_nonneg h0] at h3
    exact h3.trans (by nlinarith [mul_nonneg hM0 h0])
  · push Not at hc
    have hmono : (0 : ℝ) ≤ ((crossed nb phases (phi + h) - crossed nb phases phi : ℤ) : ℝ) := by
      exact_mod_cast sub_nonneg.2 (crossed_mono phases (by linarith : phi ≤ phi + h))
    have hconst : ∀ φ, phi ≤ φ → φ ≤ phi + h → counts nb phases (φ / twopi) = counts nb phases (phi / twopi) := by
      intro φ a b
      apply counts_eq hn (by gcongr)
      intro p hp
      have h5 : φ / twopi ≤ (phi + h) / twopi := by gcongr
      linarith [hc p hp]
    have e : ∫ φ in phi..phi + h, G (counts nb phases (φ / twopi)) = ∫ _ in phi..phi + h, G (counts nb phases (phi / twopi)) := by
      apply intervalIntegral.integral_congr
      intro φ hφ
      rw [Set.uIcc_of_le (by linarith)] at hφ
      simp only
      rw [hconst φ hφ.1 hφ.2]
    rw [e, intervalIntegral.integral_const, smul_eq_mul, hconst (phi + h) (by linarith) le_rfl]
    have : h * (0.5 * G (counts nb phases (phi / twopi)) + 0.5 * G (counts nb phases (phi / twopi))) - (phi + h - phi) * G (counts nb phases (phi / twopi)) = 0 := by ring
    rw [this, abs_zero]
    positivity

/-- The composite rule. -/
theorem trap_sum {nb : ℕ} (hn : 0 < nb) {phases : List ℝ} {G : List ℕ → ℝ} {M : ℝ} (hM : ∀ u v, |G (counts nb phases u) - G (counts nb phases v)| ≤ M) {h : ℝ} (h0 : 0 ≤ h) (n : ℕ) :
    |h * ∑ i ∈ Finset.range n, (0.5 * G (counts nb phases (i * h / twopi)) + 0.5 * G (counts nb phases ((i + 1 : ℕ) * h / twopi))) - ∫ φ in (0 : ℝ)..n * h, G (counts nb phases (φ / twopi))| ≤
      (crossed nb phases (n * h) - crossed nb phases 0 : ℤ) * (M * h) := by
  have hI := integrable_counts (G := G) hM
  induction n with
  | zero => simp
  | succ n ih =>
    rw [Finset.sum_range_succ, mul_add, ← intervalIntegral.integral_add_adjacent_intervals (hI 0 (n * h)) (hI _ _)]
    have e : ((n + 1 : ℕ) : ℝ) * h = n * h + h := by push_cast; ring
    have h1 := trap_one hn hM (phi := n * h) h0
    rw [e]
    push_cast at ih h1 ⊢
    rw [abs_le] at *
    constructor <;> nlinarith [ih.1, ih.2, h1.1, h1.2]

/-- The weights of the points of the rule with `n` intervals. -/
noncomputable def wt (n i : ℕ) : ℝ := if i = 0 ∨ i = n then 0.5 else 1

theorem trapLoop_spec {nb : ℕ} (hn : 0 < nb) {phases : List ℝ} (hp : ∀ p ∈ phases, 0 ≤ p) (lndfac lfac : ℝ) {h : ℝ} (h0 : 0 ≤ h) (n m k : ℕ) (s : ℝ × ℝ) :
    trapLoop phases.length lndfac phases nb (binbounds nb) (n + 1) lfac ((List.range' k m).map fun (i : ℕ) => (i : ℝ) * h) (k + 1) s =
      .val (s.1 + ∑ i ∈ Finset.range m, wt n (k + i) * exp (plimult (counts nb phases ((k + i : ℕ) * h / twopi)) - lndfac + lfac),
        s.2 + ∑ i ∈ Finset.range m, wt n (k + i) * chisqr phases.length (counts nb phases ((k + i : ℕ) * h / twopi))) := by
  induction m generalizing k s with
  | zero => simp [trapLoop]
  | succ m ih =>
    rw [List.range'_succ, List.map_cons, trapLoop]
    obtain ⟨d, e1, -⟩ := fbindata_spec hn hp (phi := (k : ℝ) * h) (by positivity)
    rw [e1]
    simp only [Out.bind]
    have hs : ∀ g : ℕ → ℝ, ∑ i ∈ Finset.range (m + 1), g (k + i) = g k + ∑ i ∈ Finset.range m, g (k + 1 + i) := by
      intro g
      rw [Finset.sum_range_succ', add_comm]
      simp only [add_zero]
      congr 1
      apply Finset.sum_congr rfl
      intro i _
      congr 1
      omega
    have w1 : ∀ x : ℝ, (k + 1 = 1 ∨ k + 1 = n + 1) → wt n k * x = 0.5 * x := by
      intro x hx
      unfold wt
      rw [if_pos (by omega)]
    have w2 : ∀ x : ℝ, ¬ (k + 1 = 1 ∨ k + 1 = n + 1) → wt n k * x = x := by
      intro x hx
      unfold wt
      rw [if_neg (by omega), one_mul]
    rw [hs fun i => wt n i * exp (plimult (counts nb phases ((i : ℕ) * h / twopi)) - lndfac + lfac), hs fun i => wt n i * chisqr phases.length (counts nb phases ((i : ℕ) * h / twopi))]
    split_ifs with hc
    · rw [ih, w1 _ hc, w1 _ hc]
      simp only [add_assoc]
    · rw [ih, w2 _ hc, w2 _ hc]
      simp only [add_assoc]

theorem wt_sum (g : ℕ → ℝ) {n : ℕ} (hn : 0 < n) : ∑ i ∈ Finset.range (n + 1), wt n i * g i = ∑ i ∈ Finset.range n, (0.5 * g i + 0.5 * g (i + 1)) := by
  obtain ⟨m, rfl⟩ : ∃ m, n = m + 1 := ⟨n - 1, by omega⟩
  rw [Finset.sum_range_succ, Finset.sum_range_succ', Finset.sum_add_distrib, Finset.sum_range_succ' (fun i => 0.5 * g i), Finset.sum_range_succ (fun i => 0.5 * g (i + 1))]
  have h1 : ∑ i ∈ Finset.range m, wt (m + 1) (i + 1) * g (i + 1) = ∑ i ∈ Finset.range m, g (i + 1) := by
    apply Finset.sum_congr rfl
    intro i hi
    rw [Finset.mem_range] at hi
    unfold wt
    rw [if_neg (by omega), one_mul]
  have h2 : ∑ i ∈ Finset.range m, g (i + 1) = ∑ i ∈ Finset.range m, 0.5 * g (i + 1) + ∑ i ∈ Finset.range m, 0.5 * g (i + 1) := by
    rw [← Finset.sum_add_distrib]
    apply Finset.sum_congr rfl
    intro i _
    ring
  rw [h1, h2]
  simp only [wt, true_or, or_true, if_true]
  ring

theorem qlwTrap_spec {nb : ℕ} (hn : 0 < nb) {phases : List ℝ} (hp : ∀ p ∈ phases, 0 ≤ p) (lndfac lfac : ℝ) {h : ℝ} (h0 : 0 ≤ h) {n : ℕ} (h1 : 0 < n) :
    qlwTrap lndfac phases nb (binbounds nb) ((List.range (n + 1)).map fun (i : ℕ) => (i : ℝ) * h) lfac =
      .val (nb * (h * ∑ i ∈ Finset.range n, (0.5 * exp (plimult (counts nb phases ((i : ℕ) * h / twopi)) - lndfac + lfac) + 0.5 * exp (plimult (counts nb phases ((i + 1 : ℕ) * h / twopi)) - lndfac + lfac))),
        nb * (h * ∑ i ∈ Finset.range n, (0.5 * chisqr phases.length (counts nb phases ((i : ℕ) * h / twopi)) + 0.5 * chisqr phases.length (counts nb phases ((i + 1 : ℕ) * h / twopi)))) / twopi) := by
  obtain ⟨m, rfl⟩ : ∃ m, n = m + 1 := ⟨n - 1, by omega⟩
  have hsp := trapLoop_spec hn hp lndfac lfac h0 (m + 1) (m + 2) 0 (0, 0)
  rw [← List.range_eq_range'] at hsp
  have hl : (List.range (m + 1 + 1)).map (fun (i : ℕ) => (i : ℝ) * h) = ((0 : ℕ) : ℝ) * h :: ((1 : ℕ) : ℝ) * h :: ((List.range' 2 m).map fun (i : ℕ) => (i : ℝ) * h) := by
    rw [List.range_eq_range', List.range'_succ, List.range'_succ]
    simp
  unfold qlwTrap
  rw [hl]
  simp only
  rw [← hl]
  simp only [List.length_map, List.length_range]
  rw [hsp]
  simp only [Out.bind, zero_add]
  rw [wt_sum (fun i => exp (plimult (counts nb phases ((i : ℕ) * h / twopi)) - lndfac + lfac)) (by omega : 0 < m + 1), wt_sum (fun i => chisqr phases.length (counts nb phases ((i : ℕ) * h / twopi))) (by omega : 0 < m + 1)]
  simp only [Nat.cast_one, Nat.cast_zero, one_mul, zero_mul, sub_zero]
  congr 2 <;> ring

end Verif.Point
