import Verif.Drxn.DrxnLemmas

/-!
# Theorems on directions and coincidences (C127-C130)
-/

set_option linter.unusedSectionVars false

namespace Verif.Drxn

open Verif Real

theorem lit2 (a b c : ℝ) : (![a, b, c] : V3) 2 = c := rfl

/-! ### C127: directions -/

/-- A direction is accepted exactly when a vector, or a longitude and a latitude, or a right ascension and a declination is given and nothing
else; anything else is a `ValueError`. -/
theorem C127_accepted (lng lat ra dec : Option ℝ) (deg : Bool) (uvec : Option V3) :
    ((∃ d, mkDir lng lat ra dec deg uvec = .ok d) ↔
      (uvec ≠ none ∧ lng = none ∧ lat = none ∧ ra = none ∧ dec = none) ∨
      (uvec = none ∧ lng ≠ none ∧ lat ≠ none ∧ ra = none ∧ dec = none) ∨
      (uvec = none ∧ lng = none ∧ lat = none ∧ ra ≠ none ∧ dec ≠ none)) ∧
    ∀ e, mkDir lng lat ra dec deg uvec = .error e → e = .value := by
  unfold mkDir
  cases uvec <;> cases lng <;> cases lat <;> cases ra <;> cases dec <;> simp <;> exact fun e h => h.symm

example : ∃ d, mkDir (some 1) (some 2) none none true none = .ok d := ((C127_accepted _ _ _ _ _ _).1).2 (by simp)

/-- The vector stored is the direction the angles name, in radians or in degrees; the angles are stored in radians. -/
theorem C127_vector (x y : ℝ) (deg : Bool) (d : Dir) :
    (mkDir (some x) (some y) none none deg none = .ok d →
      ∃ a b, (a = if deg then x * (π / 180) else x) ∧ (b = if deg then y * (π / 180) else y) ∧
        d.uvec = dirOf a b ∧ d.long = some a ∧ d.lat = some b ∧ d.ra = none ∧ d.dec = none) ∧
    (mkDir none none (some x) (some y) deg none = .ok d →
      ∃ a b, (a = if deg then x * (π / 180) else x) ∧ (b = if deg then y * (π / 180) else y) ∧
        d.uvec = dirOf a b ∧ d.ra = some a ∧ d.dec = some b ∧ d.long = none ∧ d.lat = none) := by
  have ht : ∀ z, toRad deg z = if deg then z * (π / 180) else z := by
    intro z
    unfold toRad
    split
    · ring
    · rfl
  constructor
  · intro h
    simp [mkDir] at h
    subst h
    exact ⟨_, _, ht x, ht y, rfl, rfl, rfl, rfl, rfl⟩
  · intro h
    simp [mkDir] at h
    subst h
    exact ⟨_, _, ht x, ht y, rfl, rfl, rfl, rfl, rfl⟩

/-- The product of two directions is the cosine of the angle between them: it is symmetric, at most one, and one for the same direction
only; for angles it is the cosine formula of spherical trigonometry.  Missing: nothing checks that a vector given has unit length
(`C127_violated_unit`). -/
theorem C127_product_partial {lng lat ra dec lng' lat' ra' dec' : Option ℝ} {deg deg' : Bool} {uvec uvec' : Option V3} {a b : Dir}
    (ha : mkDir lng lat ra dec deg uvec = .ok a) (hb : mkDir lng' lat' ra' dec' deg' uvec' = .ok b)
    (hu : ∀ u, uvec = some u → IsUnit3 u) (hu' : ∀ u, uvec' = some u → IsUnit3 u) :
    a.mul b = b.mul a ∧ |a.mul b| ≤ 1 ∧ (a.mul b = 1 ↔ a.uvec = b.uvec) ∧
      ∀ φ θ φ' θ', a.uvec = dirOf φ θ → b.uvec = dirOf φ' θ' → a.mul b = sin θ * sin θ' + cos θ * cos θ' * cos (φ - φ') := by
  have h1 := mkDir_unit ha hu
  have h2 := mkDir_unit hb hu'
  unfold Dir.mul
  refine ⟨dot3_comm _ _, ?_, ⟨fun h => ?_, fun h => ?_⟩, fun φ θ φ' θ' e e' => ?_⟩
  · have := dot3_sq a.uvec b.uvec
    rw [h1, h2] at this
    exact abs_le_one_iff_mul_self_le_one.2 (by nlinarith)
  · have h0 : dot3 (fun i => a.uvec i - b.uvec i) (fun i => a.uvec i - b.uvec i) = 0 := by
      have e1 : dot3 a.uvec a.uvec = 1 := h1
      have e2 : dot3 b.uvec b.uvec = 1 := h2
      rw [dot3_eq] at h e1 e2 ⊢
      linarith
    rw [dot3_eq] at h0
    funext i
    have s0 := mul_self_nonneg (a.uvec 0 - b.uvec 0)
    have s1 := mul_self_nonneg (a.uvec 1 - b.uvec 1)
    have s2 := mul_self_nonneg (a.uvec 2 - b.uvec 2)
    have : a.uvec i - b.uvec i = 0 := by
      match i with
      | 0 => exact mul_self_eq_zero.1 (by linarith)
      | 1 => exact mul_self_eq_zero.1 (by linarith)
      | 2 => exact mul_self_eq_zero.1 (by linarith)
    linarith
  · rw [h]; exact h2
  · rw [e, e', dot3_eq, cos_sub]
    show cos φ * cos θ * (cos φ' * cos θ') + sin φ * cos θ * (sin φ' * cos θ') + sin θ * sin θ' = _
    ring

example : ∃ a b : Dir, mkDir (some 0) (some 0) none none false none = .ok a ∧ mkDir none none (some 90) (some 45) true none = .ok b ∧
    (∀ u, (none : Option V3) = some u → IsUnit3 u) ∧ a.uvec ≠ b.uvec := by
  refine ⟨_, _, rfl, rfl, by simp, ?_⟩
  intro h
  have h2 : sin 0 = sin (π * 45 / 180) := congrFun h 2
  rw [sin_zero, show π * 45 / 180 = π / 4 by ring, sin_pi_div_four] at h2
  have : (0 : ℝ) < √2 / 2 := by positivity
  linarith

/-- A vector of length two is accepted as a direction, and the cosine of the angle it makes with itself is then four. -/
theorem C127_violated_unit : ∃ (u : V3) (d : Dir), ¬ IsUnit3 u ∧ mkDir none none none none false (some u) = .ok d ∧ d.mul d = 4 := by
  refine ⟨![2, 0, 0], _, ?_, rfl, ?_⟩
  · unfold IsUnit3; rw [dot3_eq]; norm_num [lit2]
  · show dot3 ![2, 0, 0] ![2, 0, 0] = 4
    rw [dot3_eq]; norm_num [lit2]

/-- An uncertainty and a concentration may both be given, although only one is documented to be allowed; the uncertainty is ignored. -/
theorem C127_violated_both (sig k : ℝ) (hk : k ≠ 0) (u : V3) :
    ∃ d, mkFDir (some sig) none none none none false (some u) (some k) = .ok d ∧ d.kappa = k ∧ d.sig = none := by
  refine ⟨{ long := none, lat := none, ra := none, dec := none, uvec := u, sig := none, kappa := k, lsk := lsinhc k }, ?_, rfl, rfl⟩
  unfold mkFDir
  simp [mkDir, hk, Option.filter]

/-! ### C128: the likelihood of a direction -/

/-- Directions made by the constructor, whose vector, if one is given, has unit length. -/
def Built (d : FDir) : Prop :=
  ∃ sig lng lat ra dec deg uvec kappa, mkFDir sig lng lat ra dec deg uvec kappa = .ok d ∧ ∀ u, uvec = some u → IsUnit3 u

theorem Built.unit {d : FDir} (h : Built d) : IsUnit3 d.uvec := by
  obtain ⟨_, _, _, _, _, _, _, _, h, hu⟩ := h
  exact (mkFDir_facts h hu).1

theorem Built.lsk {d : FDir} (h : Built d) : d.lsk = lsinhc d.kappa := by
  obtain ⟨_, _, _, _, _, _, _, _, h, hu⟩ := h
  exact (mkFDir_facts h hu).2

theorem built_of (u : V3) (k : ℝ) (hu : IsUnit3 u) (hk : k ≠ 0) :
    Built { long := none, lat := none, ra := none, dec := none, uvec := u, sig := none, kappa := k, lsk := lsinhc k } :=
  ⟨none, none, none, none, none, false, some u, some k, by unfold mkFDir; simp [mkDir, hk, Option.filter], fun v hv => by cases hv; exact hu⟩

theorem sphAvg_mul (c : ℝ) (f : V3 → ℝ) : sphAvg (fun n => c * f n) = c * sphAvg f := by
  unfold sphAvg
  simp only [mul_assoc, intervalIntegral.integral_const_mul]
  ring

/-- The log likelihood is that of the Fisher distribution: it is a function of the direction asked for, in either kind of angles, it is the
log of a density whose integral over the sphere is one within the accuracy `lsErr`, and it falls with the angle as the concentration says.
Missing: concentrations below 7/20 (`C128_violated_small`), and the other two ways of naming a direction (`C128_violated_drxn`). -/
theorem C128_density_partial (s : FDir) (h : Built s) (hk : 7 / 20 ≤ s.kappa) :
    ∃ L : V3 → ℝ,
      (∀ φ θ, s.llike none (some φ) (some θ) none none none = .ok (.num (L (dirOf φ θ)))) ∧
      (∀ φ θ, s.llike none none none (some φ) (some θ) none = .ok (.num (L (dirOf φ θ)))) ∧
      (∀ n, L s.uvec - L n = s.kappa * (1 - dot3 s.uvec n)) ∧
      |log (4 * π * sphAvg fun n => exp (L n))| ≤ lsErr s.kappa := by
  obtain ⟨v, hv, he⟩ := lsinhc_near _ hk
  have hl := h.lsk
  have h0 : 0 < s.kappa := by linarith
  refine ⟨fun n => s.kappa * dot3 n s.uvec - log (4 * π) - v, fun φ θ => ?_, fun φ θ => ?_, fun n => ?_, ?_⟩
  · simp [FDir.llike, hl, hv, Fl.sub, angVec_eq]
  · simp [FDir.llike, hl, hv, Fl.sub, angVec_eq]
  · show s.kappa * dot3 s.uvec s.uvec - log (4 * π) - v - (s.kappa * dot3 n s.uvec - log (4 * π) - v) = _
    rw [show dot3 s.uvec s.uvec = 1 from h.unit, dot3_comm n]; ring
  · have e : (fun n => exp (s.kappa * dot3 n s.uvec - log (4 * π) - v)) = fun n => (exp (-v) / (4 * π)) * fisher s.kappa s.uvec n := by
      funext n
      unfold fisher
      rw [sub_eq_add_neg _ v, exp_add, exp_sub, exp_log (by positivity), dot3_comm n]
      ring
    rw [e, sphAvg_mul, sphAvg_fisher _ _ h0 h.unit]
    have : 4 * π * (exp (-v) / (4 * π) * (sinh s.kappa / s.kappa)) = exp (-v) * (sinh s.kappa / s.kappa) := by field_simp
    rw [this, log_mul (exp_pos _).ne' (sinhc_pos _ h0).ne', log_exp]
    rw [abs_sub_comm] at he
    rwa [neg_add_eq_sub]

example : ∃ s : FDir, Built s ∧ 7 / 20 ≤ s.kappa := ⟨_, built_of (dirOf 1 1) 30 (dirOf_unit 1 1) (by norm_num), by norm_num⟩

/-- For a concentration of 1/100 the density integrates to less than a tenth. -/
theorem C128_violated_small : ∃ (s : FDir) (L : V3 → ℝ), Built s ∧ s.kappa = 1 / 100 ∧
    (∀ φ θ, s.llike none (some φ) (some θ) none none none = .ok (.num (L (dirOf φ θ)))) ∧
    4 * π * sphAvg (fun n => exp (L n)) < 1 / 10 := by
  have hb := built_of (dirOf 0 0) (1 / 100) (dirOf_unit 0 0) (by norm_num)
  refine ⟨_, fun n => 1 / 100 * dot3 n (dirOf 0 0) - log (4 * π) - (1 / 100 - log2s - log (1 / 100) - exp (-2 * (1 / 100))), hb, rfl, fun φ θ => ?_, ?_⟩
  · have : lsinhc (1 / 100) = .num (1 / 100 - log2s - log (1 / 100) - exp (-2 * (1 / 100))) := by
      unfold lsinhc; norm_num
    simp only [FDir.llike, this]
    simp [Fl.sub, angVec_eq]
  · set v : ℝ := 1 / 100 - log2s - log (1 / 100) - exp (-2 * (1 / 100)) with hv
    have e : (fun n => exp (1 / 100 * dot3 n (dirOf 0 0) - log (4 * π) - v)) = fun n => (exp (-v) / (4 * π)) * fisher (1 / 100) (dirOf 0 0) n := by
      funext n
      unfold fisher
      rw [sub_eq_add_neg _ v, exp_add, exp_sub, exp_log (by positivity), dot3_comm n]
      ring
    rw [e, sphAvg_mul, sphAvg_fisher _ _ (by norm_num) (dirOf_unit 0 0)]
    have h1 : 4 * π * (exp (-v) / (4 * π) * (sinh (1 / 100) / (1 / 100))) = exp (-v) * (sinh (1 / 100) / (1 / 100)) := by field_simp
    rw [h1]
    have h2 : sinh (1 / 100 : ℝ) / (1 / 100) ≤ exp (1 / 100) := by
      rw [div_le_iff₀ (by norm_num), sinh_eq]
      have : exp (-(1 / 100 : ℝ)) = exp (1 / 100) * exp (-2 * (1 / 100)) := by rw [← exp_add]; norm_num
      rw [this]
      have h3 : 1 - exp (-2 * (1 / 100 : ℝ)) ≤ 2 * (1 / 100) := by
        have := add_one_le_exp (-2 * (1 / 100 : ℝ)); linarith
      nlinarith [exp_pos (1 / 100 : ℝ)]
    have h4 : (9 : ℝ) / 2 < log 100 := by
      rw [lt_log_iff_exp_lt (by norm_num)]
      have : exp (9 / 2 : ℝ) ^ 2 = exp 1 ^ 9 := by rw [← exp_nat_mul, ← exp_nat_mul]; norm_num
      have h5 : exp 1 ^ 9 < (100 : ℝ) ^ 2 := lt_of_lt_of_le (pow_lt_pow_left₀ exp_one_lt_d9 (exp_pos _).le (by norm_num)) (by norm_num)
      rw [← this] at h5
      exact lt_of_pow_lt_pow_left₀ 2 (by norm_num) h5
    have h6 : exp (-2 * (1 / 100 : ℝ)) ≤ 1 := by rw [exp_le_one_iff]; norm_num
    have h7 : (14 : ℝ) / 5 ≤ v - 1 / 100 := by
      rw [hv, one_div, log_inv]
      have : log2s < 7 / 10 := by unfold log2s; norm_num
      linarith
    calc exp (-v) * (sinh (1 / 100) / (1 / 100)) ≤ exp (-v) * exp (1 / 100) := mul_le_mul_of_nonneg_left h2 (exp_pos _).le
      _ = exp (-(v - 1 / 100)) := by rw [← exp_add]; ring_nf
      _ ≤ exp (-(14 / 5)) := exp_le_exp.2 (by linarith)
      _ < 1 / 10 := by
        rw [exp_neg, one_div]
        refine inv_strictAnti₀ (by norm_num) ?_
        have h8 : exp (14 / 5 : ℝ) ^ 5 = exp 1 ^ 14 := by rw [← exp_nat_mul, ← exp_nat_mul]; norm_num
        have h9 : (10 : ℝ) ^ 5 < exp 1 ^ 14 :=
          lt_of_lt_of_le (by norm_num) (pow_le_pow_left₀ (by norm_num) (exp_one_gt_d9.le.trans' (by norm_num : (2.7 : ℝ) ≤ 2.7182818283)) 14)
        rw [← h8] at h9
        exact lt_of_pow_lt_pow_left₀ 5 (exp_pos _).le h9

/-- The likelihood of a direction passed as an object, or as a vector, is never returned: both are a `ValueError`, whatever else is given. -/
theorem C128_violated_drxn (s : FDir) (lng lat ra dec : Option ℝ) (d : Dir) (u : V3) (uvec : Option V3) :
    s.llike (some d) lng lat ra dec uvec = .error .value ∧ s.llike none lng lat ra dec (some u) = .error .value := by
  constructor
  · unfold FDir.llike
    dsimp only
    split
    · rfl
    · cases lng <;> cases lat <;> cases ra <;> cases dec <;> simp
  · unfold FDir.llike
    cases lng <;> cases lat <;> cases ra <;> cases dec <;> simp

/-! ### C129: coincidences -/

/-- The log Bayes factor is that of one common direction against separate ones, within the accuracies of its terms.  Missing: directions
whose weighted sum is shorter than 7/20 or whose concentrations are less (`C129_violated_opposite`). -/
theorem C129_factor_partial (l : List FDir) (h0 : l ≠ []) (hb : ∀ d ∈ l, Built d) (hk : ∀ d ∈ l, 7 / 20 ≤ d.kappa) (R : ℝ)
    (hR : R ^ 2 = dot3 (fun i => (l.map fun d => d.kappa * d.uvec i).sum) (fun i => (l.map fun d => d.kappa * d.uvec i).sum)) (hR0 : 7 / 20 ≤ R) :
    ∃ v, multipletLbf l = .ok (.num v) ∧
      |v - log (bayes (l.map FDir.meas))| ≤ lsErr R + (l.map fun d => lsErr d.kappa).sum := by
  have ht : (fun i => (l.map fun d => d.kappa * d.uvec i).sum) = total l := by
    funext i
    have h := dot3_total l (Pi.single i 1)
    have e : ∀ u : V3, dot3 u (Pi.single i 1) = u i := by
      intro u; unfold dot3; simp [Pi.single_apply]
    simp only [e] at h
    exact h.symm
  have hn : norm3 (total l) = R := by
    rw [ht] at hR
    rw [norm3_eq, ← hR, sqrt_sq (by linarith)]
  obtain ⟨x, hx, hxe⟩ := lsinhc_near R hR0
  obtain ⟨v, hv, hve⟩ := minusLsks_near l (fun d hd => (hb d hd).lsk) hk x _ _ hxe
  refine ⟨v, ?_, ?_⟩
  · unfold multipletLbf
    rw [if_neg h0, hn, hx, hv]
  · have hk0 : ∀ d ∈ l, 0 < d.kappa := fun d hd => by have := hk d hd; linarith
    rw [bayes_eq l (fun d hd => (hb d hd).unit) hk0 (by rw [hn]; linarith), hn, log_div (sinhc_pos R (by linarith)).ne' (log_prod l hk0).1.ne', (log_prod l hk0).2]
    exact hve

/-- The factors for two and for three directions are those for lists of them, and the order of the directions does not matter. -/
theorem C129_order (a b c : FDir) (l l' : List FDir) (h : l.Perm l') :
    multipletLbf [a, b] = .ok (doubletLbf a b) ∧ multipletLbf [a, b, c] = .ok (tripletLbf a b c) ∧ multipletLbf l = multipletLbf l' := by
  refine ⟨?_, by unfold multipletLbf; rw [if_neg (by simp)]; rfl, ?_⟩
  · unfold multipletLbf doubletLbf minusLsks total
    rw [if_neg (by simp)]
    simp
  · have ht : total l = total l' := by
      have e : ∀ (l : List FDir) (u : V3), dot3 (total l) u = (l.map fun d => d.kappa * dot3 d.uvec u).sum := dot3_total
      funext i
      have e1 : ∀ u : V3, dot3 u (Pi.single i 1) = u i := by
        intro u; unfold dot3; simp [Pi.single_apply]
      rw [← e1 (total l), ← e1 (total l'), e, e]
      exact (h.map _).sum_eq
    have hm : ∀ x, minusLsks l x = minusLsks l' x := fun x => h.foldl_eq x
    unfold multipletLbf
    rw [ht]
    by_cases h0 : l = []
    · subst h0
      rw [List.nil_perm.1 h]
    · have h1 : l' ≠ [] := fun e => h0 (List.perm_nil.1 (e ▸ h))
      rw [if_neg h0, if_neg h1, hm]

/-- Two measurements in opposite directions, with concentration ten: the chance of one common source is a millionth of that of two, yet the
log Bayes factor reported favours the common source infinitely. -/
theorem C129_violated_opposite : ∃ a b : FDir, Built a ∧ Built b ∧ a.kappa = 10 ∧ b.kappa = 10 ∧ (∀ i, b.uvec i = -a.uvec i) ∧
    doubletLbf a b = .posInf ∧ bayes [a.meas, b.meas] < 1 / 10 ^ 6 := by
  have u1 : IsUnit3 ![1, 0, 0] := by unfold IsUnit3; rw [dot3_eq]; norm_num [lit2]
  have u2 : IsUnit3 ![-1, 0, 0] := by unfold IsUnit3; rw [dot3_eq]; norm_num [lit2]
  refine ⟨_, _, built_of _ 10 u1 (by norm_num), built_of _ 10 u2 (by norm_num), rfl, rfl, ?_, ?_, ?_⟩
  · intro i
    match i with
    | 0 => rfl
    | 1 => exact neg_zero.symm
    | 2 => exact neg_zero.symm
  · have e : norm3 (fun i => 10 * (![1, 0, 0] : V3) i + 10 * (![-1, 0, 0] : V3) i) = 0 := by
      unfold norm3; simp [lit2]
    have h10 : lsinhc 10 = .num (10 - log2s - log 10 - exp (-2 * 10)) := by unfold lsinhc; norm_num
    have h0 : lsinhc 0 = .posInf := by unfold lsinhc; simp
    unfold doubletLbf
    simp only [e, h10, h0, Fl.sub]
  · unfold bayes FDir.meas
    simp only [List.map_cons, List.map_nil, List.prod_cons, List.prod_nil, mul_one]
    rw [sphAvg_fisher _ _ (by norm_num) u1, sphAvg_fisher _ _ (by norm_num) u2]
    have e : (fun n : V3 => fisher 10 ![1, 0, 0] n * fisher 10 ![-1, 0, 0] n) = fun _ => 1 := by
      funext n
      unfold fisher
      rw [← exp_add, dot3_eq, dot3_eq]
      simp [lit2]
    rw [e, sphAvg_one]
    have h1 : (10 : ℝ) ^ 3 < sinh 10 / 10 := by
      rw [lt_div_iff₀ (by norm_num), sinh_eq]
      have h2 : (2.7 : ℝ) ^ 10 ≤ exp 1 ^ 10 := pow_le_pow_left₀ (by norm_num) (exp_one_gt_d9.le.trans' (by norm_num : (2.7 : ℝ) ≤ 2.7182818283)) 10
      rw [← exp_nat_mul] at h2
      norm_num at h2 ⊢
      have h3 : exp (-10 : ℝ) ≤ 1 := by rw [exp_le_one_iff]; norm_num
      linarith
    rw [one_div, one_div]
    refine inv_strictAnti₀ (by positivity) ?_
    nlinarith

/-! ### C130: the best common direction -/

/-- The fit statistic is the least lack of likelihood any common direction can have; unless the weighted directions cancel, the fitted
direction is the only one that has it, and the product of the likelihoods of the measurements is, up to a factor, the likelihood of the fitted
direction with the fitted concentration.  Missing: measurements that cancel (`C130_violated_cancel`). -/
theorem C130_fit_partial (l : List FDir) (h0 : l ≠ []) (hb : ∀ d ∈ l, Built d) :
    ∃ v, fisherLml l = .ok v ∧ IsLeast (lack (l.map FDir.meas) '' {n | IsUnit3 n}) v ∧
      ((∃ i, (l.map fun d => d.kappa * d.uvec i).sum ≠ 0) → ∃ d, fisherFit l = .ok (v, d) ∧ Built d ∧ 0 < d.kappa ∧
        (∀ n, IsUnit3 n → (lack (l.map FDir.meas) n = v ↔ n = d.uvec)) ∧
        ∀ n, ((l.map FDir.meas).map fun m => fisher m.1 m.2 n).prod = fisher d.kappa d.uvec n) := by
  have hl : ∀ d ∈ l, IsUnit3 d.uvec := fun d hd => (hb d hd).unit
  have hle : ∀ n, IsUnit3 n → kSum l - norm3 (total l) ≤ lack (l.map FDir.meas) n := by
    intro n hn
    rw [lack_eq l hl]
    have := dot3_le (total l) n hn
    linarith
  have hpos : norm3 (total l) ≠ 0 → IsUnit3 (fun i => total l i / norm3 (total l)) ∧
      dot3 (total l) (fun i => total l i / norm3 (total l)) = norm3 (total l) := by
    intro hne
    have e : (fun i => total l i / norm3 (total l)) = fun i => (norm3 (total l))⁻¹ * total l i := by funext i; rw [div_eq_inv_mul]
    rw [e]
    constructor
    · unfold IsUnit3
      rw [dot3_smul, dot3_comm, dot3_smul, norm3_sq]; field_simp
    · rw [dot3_comm, dot3_smul, norm3_sq]; field_simp
  refine ⟨kSum l - norm3 (total l), by unfold fisherLml; rw [if_neg h0], ⟨?_, ?_⟩, ?_⟩
  · by_cases hz : norm3 (total l) = 0
    · refine ⟨dirOf 0 0, dirOf_unit 0 0, ?_⟩
      rw [lack_eq l hl]
      have h1 := dot3_sq (total l) (dirOf 0 0)
      rw [norm3_sq, hz] at h1
      have h2 : dot3 (total l) (dirOf 0 0) = 0 := by nlinarith
      rw [h2, hz]
    · exact ⟨_, (hpos hz).1, by rw [lack_eq l hl, (hpos hz).2]⟩
  · rintro _ ⟨n, hn, rfl⟩
    exact hle n hn
  · rintro ⟨i, hi⟩
    have hti : total l i ≠ 0 := by
      have h := dot3_total l (Pi.single i 1)
      have e : ∀ u : V3, dot3 u (Pi.single i 1) = u i := by
        intro u; unfold dot3; simp [Pi.single_apply]
      simp only [e] at h
      rw [h]; exact hi
    have hne : norm3 (total l) ≠ 0 := by
      intro hz
      have h1 := norm3_sq (total l)
      rw [hz, dot3_eq] at h1
      have s0 := mul_self_nonneg (total l 0)
      have s1 := mul_self_nonneg (total l 1)
      have s2 := mul_self_nonneg (total l 2)
      refine hti ?_
      match i with
      | 0 => exact mul_self_eq_zero.1 (by linarith)
      | 1 => exact mul_self_eq_zero.1 (by linarith)
      | 2 => exact mul_self_eq_zero.1 (by linarith)
    obtain ⟨hu, hd⟩ := hpos hne
    have hp : 0 < norm3 (total l) := lt_of_le_of_ne (norm3_nonneg _) (Ne.symm hne)
    refine ⟨_, ?_, built_of _ _ hu hne, hp, ?_, ?_⟩
    · unfold fisherFit mkFDir
      rw [if_neg h0]
      simp [mkDir, hne, Option.filter]
    · intro n hn
      rw [lack_eq l hl]
      constructor
      · intro h
        have h1 : dot3 (total l) n = norm3 (total l) := by linarith
        have h2 : dot3 (fun i => total l i / norm3 (total l) - n i) (fun i => total l i / norm3 (total l) - n i) = 0 := by
          have e1 : dot3 (fun i => total l i / norm3 (total l)) n = 1 := by
            have e : (fun i => total l i / norm3 (total l)) = fun i => (norm3 (total l))⁻¹ * total l i := by funext i; rw [div_eq_inv_mul]
            rw [e, dot3_smul, h1]; field_simp
          have e2 : dot3 n n = 1 := hn
          have e3 : dot3 (fun i => total l i / norm3 (total l)) (fun i => total l i / norm3 (total l)) = 1 := hu
          rw [dot3_eq] at e1 e2 e3 ⊢
          linarith
        rw [dot3_eq] at h2
        funext j
        have s0 := mul_self_nonneg (total l 0 / norm3 (total l) - n 0)
        have s1 := mul_self_nonneg (total l 1 / norm3 (total l) - n 1)
        have s2 := mul_self_nonneg (total l 2 / norm3 (total l) - n 2)
        have : total l j / norm3 (total l) - n j = 0 := by
          match j with
          | 0 => exact mul_self_eq_zero.1 (by linarith)
          | 1 => exact mul_self_eq_zero.1 (by linarith)
          | 2 => exact mul_self_eq_zero.1 (by linarith)
        exact (sub_eq_zero.1 this).symm
      · rintro rfl
        rw [hd]
    · intro n
      rw [prod_fisher]
      unfold fisher
      congr 1
      have e : (fun i => total l i / norm3 (total l)) = fun i => (norm3 (total l))⁻¹ * total l i := by funext i; rw [div_eq_inv_mul]
      simp only [e, dot3_smul]
      field_simp

example : ∃ (l : List FDir) (R : ℝ), l ≠ [] ∧ (∀ d ∈ l, Built d ∧ 7 / 20 ≤ d.kappa) ∧ (∃ i, (l.map fun d => d.kappa * d.uvec i).sum ≠ 0) ∧
    R ^ 2 = dot3 (fun i => (l.map fun d => d.kappa * d.uvec i).sum) (fun i => (l.map fun d => d.kappa * d.uvec i).sum) ∧ 7 / 20 ≤ R := by
  have u1 : IsUnit3 ![1, 0, 0] := by unfold IsUnit3; rw [dot3_eq]; norm_num [lit2]
  have u2 : IsUnit3 ![0, 1, 0] := by unfold IsUnit3; rw [dot3_eq]; norm_num [lit2]
  refine ⟨[{ long := none, lat := none, ra := none, dec := none, uvec := ![1, 0, 0], sig := none, kappa := 3, lsk := lsinhc 3 },
    { long := none, lat := none, ra := none, dec := none, uvec := ![0, 1, 0], sig := none, kappa := 4, lsk := lsinhc 4 }], 5, by simp, ?_, ⟨0, ?_⟩, ?_, by norm_num⟩
  · intro d hd
    simp only [List.mem_cons, List.not_mem_nil, or_false] at hd
    rcases hd with rfl | rfl
    · exact ⟨built_of _ _ u1 (by norm_num), by norm_num⟩
    · exact ⟨built_of _ _ u2 (by norm_num), by norm_num⟩
  · simp
  · rw [dot3_eq]
    simp [lit2]
    norm_num

/-- Two opposite measurements of equal concentration: the fit statistic exists, but the fit is a `TypeError`. -/
theorem C130_violated_cancel : ∃ a b : FDir, Built a ∧ Built b ∧ fisherLml [a, b] = .ok 20 ∧ fisherFit [a, b] = .error (.exc .type) := by
  have u1 : IsUnit3 ![1, 0, 0] := by unfold IsUnit3; rw [dot3_eq]; norm_num [lit2]
  have u2 : IsUnit3 ![-1, 0, 0] := by unfold IsUnit3; rw [dot3_eq]; norm_num [lit2]
  refine ⟨_, _, built_of _ 10 u1 (by norm_num), built_of _ 10 u2 (by norm_num), ?_, ?_⟩
  · unfold fisherLml norm3 total kSum
    simp [lit2]
    norm_num
  · unfold fisherFit mkFDir norm3 total
    simp [mkDir, Option.filter, lit2]

end Verif.Drxn
