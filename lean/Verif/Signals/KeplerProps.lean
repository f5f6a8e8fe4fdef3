import Verif.Signals.KeplerConv

/-!
# C109: positions and velocities on a Keplerian orbit

Specification: the mean anomaly at time `t` is `2π (t - Tp)/tau`; the eccentric anomaly `E` solves Kepler's equation `E - e sin E = M`; the true anomaly has cosine `(cos E - e)/(1 - e cos E)`
and sine `√(1 - e²) sin E/(1 - e cos E)`; the radial velocity is `v0 + K (cos (long + ν) + e cos long)`.
-/

set_option linter.unusedSectionVars false

namespace Verif.Signals.Kepler

open Real

/-- Mean anomaly at time `t`. -/
noncomputable def mean (tau Tp t : ℝ) : ℝ := 2 * π * ((t - Tp) / tau)

/-- Kepler's equation. -/
def Solves (e M E : ℝ) : Prop := E - e * sin E = M

/-- Cosine and sine of the true anomaly for the eccentric anomaly `E`. -/
noncomputable def cosTA (e E : ℝ) : ℝ := (cos E - e) / (1 - e * cos E)
noncomputable def sinTA (e E : ℝ) : ℝ := √(1 - e ^ 2) * sin E / (1 - e * cos E)

/-- Radial velocity. -/
noncomputable def velocity (K e long v0 E : ℝ) : ℝ := v0 + K * (cos long * cosTA e E - sin long * sinTA e E + e * cos long)

/-- The globals describe an ellipse. -/
def Ellipse (g : Glob) : Prop := 0 ≤ g.e ∧ g.e < 1 ∧ g.tau ≠ 0

/-! ## Helpers -/

theorem modf_bounds (x : ℝ) : -1 < modf x ∧ modf x < 1 := by
  unfold modf
  split_ifs with h
  · exact ⟨by linarith [Int.floor_le x], by linarith [Int.lt_floor_add_one x]⟩
  · exact ⟨by linarith [Int.ceil_lt_add_one x], by linarith [Int.le_ceil x]⟩

theorem modf_eq (x : ℝ) : ∃ k : ℤ, modf x = x - k := by
  unfold modf
  split_ifs
  exacts [⟨_, rfl⟩, ⟨_, rfl⟩]

theorem phase_mem (g : Glob) (t : ℝ) : -π ≤ g.phase t ∧ g.phase t ≤ π := by
  have hp := pi_pos
  have := modf_bounds ((t - g.Tp) / g.tau)
  unfold Glob.phase
  dsimp only
  generalize modf ((t - g.Tp) / g.tau) = f at this
  split_ifs with h1 h2
  · constructor <;> nlinarith [this.2]
  · constructor <;> nlinarith [this.1]
  · push Not at h1 h2
    constructor <;> nlinarith

theorem phase_eq (g : Glob) (t : ℝ) : ∃ k : ℤ, g.phase t = mean g.tau g.Tp t - 2 * π * k := by
  obtain ⟨k, hk⟩ := modf_eq ((t - g.Tp) / g.tau)
  unfold Glob.phase mean
  dsimp only
  rw [hk]
  split_ifs
  · exact ⟨k + 1, by push_cast; ring⟩
  · exact ⟨k - 1, by push_cast; ring⟩
  · exact ⟨k, by ring⟩

theorem root_mem {e f E : ℝ} (h0 : 0 ≤ e) (h1 : e < 1) (hf0 : 0 ≤ f) (hf : f ≤ π) (h : Solves e f E) : 0 ≤ E ∧ E ≤ π := by
  unfold Solves at h
  constructor
  · apply (kep_strictMono h0 h1).le_iff_le.1
    simp only [sin_zero, mul_zero, sub_zero]
    linarith
  · apply (kep_strictMono h0 h1).le_iff_le.1
    simp only [sin_pi, mul_zero, sub_zero]
    linarith

theorem solve_phase {e f err r : ℝ} (h0 : 0 ≤ e) (h1 : e < 1) (hf : -π ≤ f ∧ f ≤ π) (h : newton e f err 20 (guess e f) (-π) π = some r) :
    ∃ R, Solves e f R ∧ |r - R| ≤ 2 * max err 0 ∧ -π ≤ r ∧ r ≤ π := by
  have hp := pi_pos
  rcases le_total 0 f with hf0 | hf0
  · obtain ⟨R, hR⟩ := kep_exists h0 h1 f
    obtain ⟨r0, r1⟩ := root_mem h0 h1 hf0 hf.2 hR
    have g0 := le_guess h0 h1 ⟨hf0, hf.2⟩
    have g1 := guess_le h0 h1 ⟨hf0, hf.2⟩
    obtain ⟨a, b, c⟩ := newton_near h0 h1 hR r0 err 20 (by linarith) g1 (by linarith) r1 (by linarith) le_rfl h
    exact ⟨R, hR, a, by linarith, c⟩
  · obtain ⟨R, hR⟩ := kep_exists h0 h1 (-f)
    obtain ⟨r0, r1⟩ := root_mem h0 h1 (by linarith) (by linarith [hf.1]) hR
    have g0 := le_guess h0 h1 (f := -f) ⟨by linarith, by linarith [hf.1]⟩
    have g1 := guess_le h0 h1 (f := -f) ⟨by linarith, by linarith [hf.1]⟩
    have hn := newton_neg e (-f) err 20 (EA := guess e (-f)) (lo := -π) (hi := π) (by linarith) g1
    rw [neg_neg, guess_neg, neg_neg, neg_neg] at hn
    rw [hn] at h
    rw [← guess_neg] at h
    rcases hs : newton e (-f) err 20 (guess e (-f)) (-π) π with _ | r'
    · rw [hs] at h; cases h
    rw [hs] at h
    have hr : -r' = r := Option.some.inj h
    obtain ⟨a, b, c⟩ := newton_near h0 h1 hR r0 err 20 (by linarith) g1 (by linarith) r1 (by linarith) le_rfl hs
    refine ⟨-R, ?_, ?_, by linarith, by linarith⟩
    · unfold Solves at *; rw [sin_neg]; linarith
    · rw [← hr, ← abs_neg]
      convert a using 2
      ring

theorem conv_phase {e f err : ℝ} (h0 : 0 ≤ e) (h1 : e < 1) (hf : -π ≤ f ∧ f ≤ π) (hF : Fin' (e / (2 * (1 - e))) err 18 (44 / 21))
    (hF' : Fin' (e / (2 * (1 - e))) err 19 (22 / 7)) : (newton e f err 20 (guess e f) (-π) π).isSome := by
  have hp := pi_pos
  rcases le_total 0 f with hf0 | hf0
  · obtain ⟨R, hR⟩ := kep_exists h0 h1 f
    obtain ⟨r0, r1⟩ := root_mem h0 h1 hf0 hf.2 hR
    exact newton_conv h0 h1 hR r0 r1 (le_guess h0 h1 ⟨hf0, hf.2⟩) (guess_le h0 h1 ⟨hf0, hf.2⟩) hf0 hF hF'
  · obtain ⟨R, hR⟩ := kep_exists h0 h1 (-f)
    obtain ⟨r0, r1⟩ := root_mem h0 h1 (by linarith) (by linarith [hf.1]) hR
    have g0 := le_guess h0 h1 (f := -f) ⟨by linarith, by linarith [hf.1]⟩
    have g1 := guess_le h0 h1 (f := -f) ⟨by linarith, by linarith [hf.1]⟩
    have hn := newton_neg e (-f) err 20 (EA := guess e (-f)) (lo := -π) (hi := π) (by linarith) g1
    rw [neg_neg, guess_neg, neg_neg, neg_neg] at hn
    rw [hn, ← guess_neg, Option.isSome_map]
    exact newton_conv h0 h1 hR r0 r1 g0 g1 (by linarith) hF hF'

/-- A solution for the mean anomaly within its turn gives one for the whole mean anomaly. -/
theorem Solves.turn {e M R : ℝ} (k : ℤ) (h : Solves e (M - 2 * π * k) R) : Solves e M (R + 2 * π * k) := by
  unfold Solves at *
  rw [show R + 2 * π * (k : ℝ) = R + k * (2 * π) by ring, sin_add_int_mul_two_pi]
  linarith

theorem solve_spec {g : Glob} (hg : Ellipse g) {t r : ℝ} (h : g.solve t = some r) :
    ∃ E, ∃ k : ℤ, Solves g.e (mean g.tau g.Tp t) E ∧ |r - (E - 2 * π * k)| ≤ 2 * max g.err 0 ∧ -π ≤ r ∧ r ≤ π := by
  obtain ⟨k, hk⟩ := phase_eq g t
  obtain ⟨R, h1, h2, h3⟩ := solve_phase hg.1 hg.2.1 (phase_mem g t) h
  rw [hk] at h1
  exact ⟨R + 2 * π * k, k, h1.turn, by rw [add_sub_cancel_right]; exact h2, h3⟩

theorem cosTA_turn (e E : ℝ) (k : ℤ) : cosTA e (E - 2 * π * k) = cosTA e E ∧ sinTA e (E - 2 * π * k) = sinTA e E := by
  have : E - 2 * π * (k : ℝ) = E - k * (2 * π) := by ring
  unfold cosTA sinTA
  rw [this, cos_sub_int_mul_two_pi, sin_sub_int_mul_two_pi]
  exact ⟨rfl, rfl⟩

theorem TA_sq {e : ℝ} (h0 : 0 ≤ e) (h1 : e < 1) (E : ℝ) : cosTA e E ^ 2 + sinTA e E ^ 2 = 1 := by
  have hd := den_pos h0 h1 E
  unfold cosTA sinTA
  rw [div_pow, div_pow, mul_pow, sq_sqrt (by nlinarith), ← add_div, div_eq_one_iff_eq (by positivity), sin_sq]
  ring

/-- The formulas with the half angle give the true anomaly. -/
theorem trueAnom_eq {e : ℝ} (h0 : 0 ≤ e) (h1 : e < 1) {r : ℝ} (hr : -π ≤ r ∧ r ≤ π) : trueAnom e r = (cosTA e r, sinTA e r) := by
  unfold trueAnom
  have hp := pi_pos
  by_cases hz : r = 0
  · subst hz
    have : (1 : ℝ) - e ≠ 0 := by linarith
    simp [cosTA, sinTA, this]
  rw [if_neg hz]
  by_cases hpi : |r| = π
  · rw [if_pos hpi]
    have : (1 : ℝ) + e ≠ 0 := by linarith
    have key : (-1 - e) / (1 + e) = -1 := by rw [div_eq_iff this]; ring
    rcases eq_or_eq_neg_of_abs_eq hpi with h | h
    · rw [h]; simp [cosTA, sinTA, key]
    · rw [h]; simp [cosTA, sinTA, key]
  rw [if_neg hpi]
  dsimp only
  have hlt : -π < r ∧ r < π := by
    constructor
    · refine lt_of_le_of_ne hr.1 fun h => hpi ?_
      rw [← h, abs_neg, abs_of_pos hp]
    · refine lt_of_le_of_ne hr.2 fun h => hpi ?_
      rw [h, abs_of_pos hp]
  have hc : 0 < cos (1 / 2 * r) := cos_pos_of_mem_Ioo ⟨by linarith, by linarith⟩
  have hs : sin (1 / 2 * r) ≠ 0 := by
    intro h
    have := (sin_eq_zero_iff_of_lt_of_lt (by linarith) (by linarith)).1 h
    exact hz (by linarith)
  have e1 : sin r = 2 * sin (1 / 2 * r) * cos (1 / 2 * r) := by rw [← sin_two_mul]; ring_nf
  have e2 : cos r = 2 * cos (1 / 2 * r) ^ 2 - 1 := by rw [← cos_two_mul]; ring_nf
  have hsc := sin_sq_add_cos_sq (1 / 2 * r)
  have hd := den_pos h0 h1 r
  have hq : √((1 + e) / (1 - e)) = √(1 - e ^ 2) / (1 - e) := by
    rw [show (1 + e) / (1 - e) = (1 - e ^ 2) / (1 - e) ^ 2 by
      have : (1 : ℝ) - e ≠ 0 := by linarith
      field_simp
      ring]
    rw [sqrt_div (by nlinarith), sqrt_sq (by linarith)]
  have hw : √(1 - e ^ 2) ^ 2 = 1 - e ^ 2 := sq_sqrt (by nlinarith)
  have hw0 : 0 < √(1 - e ^ 2) := sqrt_pos.2 (by nlinarith)
  rw [hq, tan_eq_sin_div_cos]
  unfold cosTA sinTA
  generalize √(1 - e ^ 2) = w at hw hw0
  rw [e1]
  rw [e2] at hd ⊢
  generalize sin (1 / 2 * r) = s at hs hsc
  generalize cos (1 / 2 * r) = c at hc hsc hd
  have hm : (1 : ℝ) - e ≠ 0 := by linarith
  have hm' : (1 : ℝ) - e > 0 := by linarith
  have hs2 : s ^ 2 = 1 - c ^ 2 := by linarith
  have hden : (1 - e) * c ^ 2 + (1 + e) * s ^ 2 = 1 - e * (2 * c ^ 2 - 1) := by rw [hs2]; ring
  have t2 : w / (1 - e) * (s / c) * (w / (1 - e) * (s / c)) = (1 + e) * s ^ 2 / ((1 - e) * c ^ 2) := by
    have : w / (1 - e) * (s / c) * (w / (1 - e) * (s / c)) = w ^ 2 * s ^ 2 / ((1 - e) ^ 2 * c ^ 2) := by
      field_simp
    rw [this, hw, div_eq_div_iff (by positivity) (by positivity)]
    ring
  rw [t2]
  have hcc : (1 - (1 + e) * s ^ 2 / ((1 - e) * c ^ 2)) / (1 + (1 + e) * s ^ 2 / ((1 - e) * c ^ 2)) = (2 * c ^ 2 - 1 - e) / (1 - e * (2 * c ^ 2 - 1)) := by
    have hne : (1 - e) * c ^ 2 ≠ 0 := by positivity
    have n1 : 1 - (1 + e) * s ^ 2 / ((1 - e) * c ^ 2) = (2 * c ^ 2 - 1 - e) / ((1 - e) * c ^ 2) := by
      rw [eq_div_iff hne, sub_mul, div_mul_cancel₀ _ hne, hs2]; ring
    have n2 : 1 + (1 + e) * s ^ 2 / ((1 - e) * c ^ 2) = (1 - e * (2 * c ^ 2 - 1)) / ((1 - e) * c ^ 2) := by
      rw [eq_div_iff hne, add_mul, div_mul_cancel₀ _ hne, hs2]; ring
    rw [n1, n2, div_div_div_cancel_right₀ hne]
  rw [hcc]
  refine Prod.ext rfl ?_
  dsimp only
  have h1c : 1 - (2 * c ^ 2 - 1 - e) / (1 - e * (2 * c ^ 2 - 1)) = 2 * (1 + e) * s ^ 2 / (1 - e * (2 * c ^ 2 - 1)) := by
    rw [eq_div_iff hd.ne', sub_mul, div_mul_cancel₀ _ hd.ne', hs2]; ring
  rw [h1c]
  have hwne : w ≠ 0 := hw0.ne'
  rw [div_div, div_eq_div_iff (by positivity) hd.ne']
  have : 2 * (1 + e) * s ^ 2 = w * (2 * s * c) * (w / (1 - e) * (s / c)) := by
    have : w * (2 * s * c) * (w / (1 - e) * (s / c)) = 2 * (w ^ 2 / (1 - e)) * s ^ 2 := by
      field_simp
    rw [this, hw, show (1 - e ^ 2 : ℝ) = (1 + e) * (1 - e) by ring, mul_div_cancel_right₀ _ hm]
  rw [this]
  ring

theorem hasDerivAt_cosTA {e : ℝ} (h0 : 0 ≤ e) (h1 : e < 1) (x : ℝ) : HasDerivAt (cosTA e) (-(√(1 - e ^ 2) / (1 - e * cos x) * sinTA e x)) x := by
  have hd := den_pos h0 h1 x
  have a : HasDerivAt (fun x => cos x - e) (-sin x) x := (hasDerivAt_cos x).sub_const e
  have b : HasDerivAt (fun x => 1 - e * cos x) (e * sin x) x := by
    refine (((hasDerivAt_cos x).const_mul e).const_sub 1).congr_deriv ?_
    ring
  refine (a.div b hd.ne').congr_deriv ?_
  unfold sinTA
  have hw : √(1 - e ^ 2) ^ 2 = 1 - e ^ 2 := sq_sqrt (by nlinarith)
  rw [div_mul_div_comm, ← neg_div, div_eq_div_iff (by positivity) (by positivity), show √(1 - e ^ 2) * (√(1 - e ^ 2) * sin x) = √(1 - e ^ 2) ^ 2 * sin x by ring, hw]
  ring

theorem hasDerivAt_sinTA {e : ℝ} (h0 : 0 ≤ e) (h1 : e < 1) (x : ℝ) : HasDerivAt (sinTA e) (√(1 - e ^ 2) / (1 - e * cos x) * cosTA e x) x := by
  have hd := den_pos h0 h1 x
  have a : HasDerivAt (fun x => √(1 - e ^ 2) * sin x) (√(1 - e ^ 2) * cos x) x := (hasDerivAt_sin x).const_mul _
  have b : HasDerivAt (fun x => 1 - e * cos x) (e * sin x) x := by
    refine (((hasDerivAt_cos x).const_mul e).const_sub 1).congr_deriv ?_
    ring
  refine (a.div b hd.ne').congr_deriv ?_
  unfold cosTA
  rw [div_mul_div_comm, div_eq_div_iff (by positivity) (by positivity)]
  have := sin_sq_add_cos_sq x
  have h : √(1 - e ^ 2) * cos x * (1 - e * cos x) - √(1 - e ^ 2) * sin x * (e * sin x) = √(1 - e ^ 2) * (cos x - e) := by
    linear_combination (-(√(1 - e ^ 2) * e)) * this
  rw [h]
  ring

/-- The true anomaly follows the eccentric anomaly with a bounded rate. -/
theorem TA_lipschitz {e : ℝ} (h0 : 0 ≤ e) (h1 : e < 1) (x y : ℝ) :
    |cosTA e x - cosTA e y| ≤ √((1 + e) / (1 - e)) * |x - y| ∧ |sinTA e x - sinTA e y| ≤ √((1 + e) / (1 - e)) * |x - y| := by
  have hq : √((1 + e) / (1 - e)) = √(1 - e ^ 2) / (1 - e) := by
    rw [show (1 + e) / (1 - e) = (1 - e ^ 2) / (1 - e) ^ 2 by
      have : (1 : ℝ) - e ≠ 0 := by linarith
      field_simp
      ring]
    rw [sqrt_div (by nlinarith), sqrt_sq (by linarith)]
  have hrate : ∀ z, √(1 - e ^ 2) / (1 - e * cos z) ≤ √((1 + e) / (1 - e)) := by
    intro z
    rw [hq]
    exact div_le_div_of_nonneg_left (sqrt_nonneg _) (by linarith) (by nlinarith [cos_le_one z])
  have hrate0 : ∀ z, 0 ≤ √(1 - e ^ 2) / (1 - e * cos z) := fun z => div_nonneg (sqrt_nonneg _) (den_pos h0 h1 z).le
  have hc1 : ∀ z, |cosTA e z| ≤ 1 := fun z => abs_le_one_iff_mul_self_le_one.2 (by nlinarith [TA_sq h0 h1 z, sq_nonneg (sinTA e z)])
  have hs1 : ∀ z, |sinTA e z| ≤ 1 := fun z => abs_le_one_iff_mul_self_le_one.2 (by nlinarith [TA_sq h0 h1 z, sq_nonneg (cosTA e z)])
  have main : ∀ (F F' : ℝ → ℝ), (∀ z, HasDerivAt F (F' z) z) → (∀ z, |F' z| ≤ √((1 + e) / (1 - e))) → |F x - F y| ≤ √((1 + e) / (1 - e)) * |x - y| := by
    intro F F' hF hb
    have := convex_univ.norm_image_sub_le_of_norm_hasDerivWithin_le (f := F) (f' := F') (C := √((1 + e) / (1 - e))) (s := Set.univ) (x := y) (y := x)
      (fun z _ => (hF z).hasDerivWithinAt) (fun z _ => by rw [norm_eq_abs]; exact hb z) trivial trivial
    simpa [norm_eq_abs] using this
  constructor
  · refine main _ _ (hasDerivAt_cosTA h0 h1) fun z => ?_
    rw [abs_neg, abs_mul, abs_of_nonneg (hrate0 z)]
    nlinarith [hrate z, hs1 z, hrate0 z, abs_nonneg (sinTA e z)]
  · refine main _ _ (hasDerivAt_sinTA h0 h1) fun z => ?_
    rw [abs_mul, abs_of_nonneg (hrate0 z)]
    nlinarith [hrate z, hc1 z, hrate0 z, abs_nonneg (cosTA e z)]

/-! ## The property -/

/-- The specification determines the eccentric anomaly. -/
theorem C109_unique {e : ℝ} (h0 : 0 ≤ e) (h1 : e < 1) (M : ℝ) : ∃! E, Solves e M E := by
  obtain ⟨E, hE⟩ := kep_exists h0 h1 M
  exact ⟨E, hE, fun E' h => (kep_strictMono h0 h1).injective (h.trans hE.symm)⟩

/-- **C109** (setting up).  After each of the three set-up calls the orbit has the period and eccentricity given, and the mean anomaly at the given time of periapsis (at time zero) is zero (the value given). -/
theorem C109_setup (g : Glob) (tau e x : ℝ) (ht : tau ≠ 0) :
    (∀ g' ∈ [g.setupTp tau e x, g.setupM0 tau e x, g.setupMp tau e x], g'.tau = tau ∧ g'.e = e ∧ g'.err = g.err) ∧
    mean (g.setupTp tau e x).tau (g.setupTp tau e x).Tp x = 0 ∧
    mean (g.setupM0 tau e x).tau (g.setupM0 tau e x).Tp 0 = x ∧
    mean (g.setupMp tau e x).tau (g.setupMp tau e x).Tp 0 = -x := by
  have hp := pi_pos.ne'
  refine ⟨?_, ?_, ?_, ?_⟩
  · intro g' hg
    simp only [List.mem_cons, List.not_mem_nil, or_false] at hg
    rcases hg with rfl | rfl | rfl <;> exact ⟨rfl, rfl, rfl⟩
  · simp [mean, Glob.setupTp]
  · simp only [mean, Glob.setupM0]; field_simp; ring
  · simp only [mean, Glob.setupMp]; field_simp; ring

/-- **C109** (eccentric anomaly).  What `t2EA` returns, unless it is -99, is within twice the tolerance of the solution of Kepler's equation, up to whole turns. -/
theorem C109_EA {g : Glob} (hg : Ellipse g) {t : ℝ} (h : g.t2EA t ≠ -99) :
    ∃ E, ∃ k : ℤ, Solves g.e (mean g.tau g.Tp t) E ∧ |g.t2EA t - (E - 2 * π * k)| ≤ 2 * max g.err 0 := by
  unfold Glob.t2EA at h ⊢
  rcases hs : g.solve t with _ | r
  · rw [hs] at h; exact absurd rfl h
  · obtain ⟨E, k, h1, h2, -⟩ := solve_spec hg hs
    exact ⟨E, k, h1, by simpa using h2⟩

/-- -99 is not an angle the solver can return otherwise. -/
theorem C109_EA_flag {g : Glob} (hg : Ellipse g) {t : ℝ} : g.t2EA t = -99 ↔ g.solve t = none := by
  unfold Glob.t2EA
  rcases hs : g.solve t with _ | r
  · simp
  · obtain ⟨E, k, h1, h2, h3, h4⟩ := solve_spec hg hs
    simp only [Option.getD_some, reduceCtorEq, iff_false]
    intro h
    linarith [pi_lt_d2]

/-- **C109** (cosines and sines of the eccentric anomaly, in arrays). -/
theorem C109_vEA {g : Glob} (hg : Ellipse g) {t : ℝ} (h : g.elemEA t ≠ (-1, -1)) :
    ∃ E, Solves g.e (mean g.tau g.Tp t) E ∧ |(g.elemEA t).1 - cos E| ≤ 2 * max g.err 0 ∧ |(g.elemEA t).2 - sin E| ≤ 2 * max g.err 0 := by
  unfold Glob.elemEA at h ⊢
  rcases hs : g.solve t with _ | r
  · rw [hs] at h; exact absurd rfl h
  · obtain ⟨E, k, h1, h2, -⟩ := solve_spec hg hs
    have e1 : E - 2 * π * (k : ℝ) = E - k * (2 * π) := by ring
    refine ⟨E, h1, ?_, ?_⟩
    · have := abs_cos_sub_cos_le r (E - 2 * π * k)
      rw [e1, cos_sub_int_mul_two_pi, ← e1] at this
      exact this.trans h2
    · have := abs_sin_sub_sin_le r (E - 2 * π * k)
      rw [e1, sin_sub_int_mul_two_pi, ← e1] at this
      exact this.trans h2

/-- **C109** (true anomaly).  If `t2TA` returns normally, the result is the cosine and sine of an angle, and they are near those of the true anomaly. -/
theorem C109_TA {g : Glob} (hg : Ellipse g) {t c s : ℝ} (h : g.t2TA t = .ok (c, s)) :
    c ^ 2 + s ^ 2 = 1 ∧ ∃ E, Solves g.e (mean g.tau g.Tp t) E ∧
      |c - cosTA g.e E| ≤ √((1 + g.e) / (1 - g.e)) * (2 * max g.err 0) ∧ |s - sinTA g.e E| ≤ √((1 + g.e) / (1 - g.e)) * (2 * max g.err 0) := by
  unfold Glob.t2TA at h
  rcases hs : g.solve t with _ | r
  · rw [hs] at h; cases h
  · rw [hs] at h
    obtain ⟨E, k, h1, h2, h3⟩ := solve_spec hg hs
    have ht := Except.ok.inj h
    rw [trueAnom_eq hg.1 hg.2.1 h3] at ht
    cases ht
    refine ⟨TA_sq hg.1 hg.2.1 r, E, h1, ?_⟩
    obtain ⟨l1, l2⟩ := TA_lipschitz hg.1 hg.2.1 r (E - 2 * π * k)
    obtain ⟨t1, t2⟩ := cosTA_turn g.e E k
    rw [t1] at l1
    rw [t2] at l2
    exact ⟨l1.trans (mul_le_mul_of_nonneg_left h2 (sqrt_nonneg _)), l2.trans (mul_le_mul_of_nonneg_left h2 (sqrt_nonneg _))⟩

/-- **C109** (arrays).  The elements of the arrays of true anomalies are what the scalar function returns, and the functions that store in an array or do both anomalies at once give the same. -/
theorem C109_arrays (g : Glob) (ts : List ℝ) :
    (∀ t cs, g.t2TA t = .ok cs → g.elemTA t = cs) ∧ (∀ t, (∀ cs, g.t2TA t ≠ .ok cs) → g.elemTA t = (-1, -1)) ∧
    g.t2EAStore ts ts.length = .ok (g.vt2EA ts) ∧ g.t2TAStore ts ts.length = .ok (g.vt2TA ts) ∧
    g.t2anoms ts ts.length ts.length = .ok (g.vt2EA ts, g.vt2TA ts) ∧
    (∀ n ≠ ts.length, g.t2EAStore ts n = .error .system ∧ g.t2TAStore ts n = .error .system) := by
  have ha : ∀ t, g.elemAnoms t = (g.elemEA t, g.elemTA t) := by
    intro t
    unfold Glob.elemAnoms Glob.elemEA Glob.elemTA
    rcases g.solve t with _ | r <;> rfl
  refine ⟨?_, ?_, by simp [Glob.t2EAStore, Glob.vt2EA], by simp [Glob.t2TAStore, Glob.vt2TA], by simp [Glob.t2anoms, Glob.vt2EA, Glob.vt2TA, ha], ?_⟩
  · intro t cs h
    unfold Glob.t2TA at h
    unfold Glob.elemTA
    rcases hs : g.solve t with _ | r
    · rw [hs] at h; cases h
    · rw [hs] at h; exact Except.ok.inj h
  · intro t h
    unfold Glob.t2TA at h
    unfold Glob.elemTA
    rcases hs : g.solve t with _ | r
    · rfl
    · rw [hs] at h; exact absurd rfl (h _)
  · intro n hn
    simp [Glob.t2EAStore, Glob.t2TAStore, hn]

/-- **C109** (convergence).  For eccentricities up to 0.98 with a tolerance of 1e-8 (the default) or more, or up to 0.99 with one of 1e-5 (as kepler.py sets it) or more,
the solver converges at every time.
Missing: eccentricities nearer to one (`C109_violated_converges`). -/
theorem C109_converges_partial {g : Glob} (hg : Ellipse g) (h : (g.e ≤ 98 / 100 ∧ 1 / 10 ^ 8 ≤ g.err) ∨ (g.e ≤ 99 / 100 ∧ 1 / 10 ^ 5 ≤ g.err)) (t : ℝ) :
    g.t2EA t ≠ -99 ∧ (∃ cs, g.t2TA t = .ok cs) ∧ g.elemEA t ≠ (-1, -1) ∧ g.elemTA t ≠ (-1, -1) := by
  have hs : (g.solve t).isSome := by
    rcases h with ⟨h1, h2⟩ | ⟨h1, h2⟩
    · obtain ⟨a, b⟩ := fin_98 (by linarith) hg.1 h2
      exact conv_phase hg.1 hg.2.1 (phase_mem g t) a b
    · obtain ⟨a, b⟩ := fin_99 (by linarith) hg.1 h2
      exact conv_phase hg.1 hg.2.1 (phase_mem g t) a b
  obtain ⟨r, hr⟩ := Option.isSome_iff_exists.1 hs
  obtain ⟨E, k, h1, h2, h3⟩ := solve_spec hg hr
  refine ⟨fun hc => ?_, ⟨trueAnom g.e r, by simp [Glob.t2TA, hr]⟩, ?_, ?_⟩
  · rw [(C109_EA_flag hg).1 hc] at hr; cases hr
  · simp only [Glob.elemEA, hr, ne_eq, Prod.mk.injEq, not_and]
    intro hc hs
    have := sin_sq_add_cos_sq r
    rw [hc, hs] at this
    norm_num at this
  · simp only [Glob.elemTA, hr, trueAnom_eq hg.1 hg.2.1 h3, ne_eq, Prod.mk.injEq, not_and]
    intro hc hs
    have := TA_sq hg.1 hg.2.1 r
    rw [hc, hs] at this
    norm_num at this

example : Ellipse { tau := 17, e := 3 / 5, Tp := 37, err := 1 / 10 ^ 5 } := ⟨by norm_num, by norm_num, by norm_num⟩

/-- **C109 fails for nearly parabolic orbits**: there the solver can give up, and the scalar function then returns -99 as if it were the anomaly, the array functions (-1, -1). -/
theorem C109_violated_converges (err : ℝ) (herr : err ≤ 1 / 10 ^ 5) :
    ∃ g : Glob, Ellipse g ∧ g.err = err ∧ ∃ t, g.t2EA t = -99 ∧ g.elemEA t = (-1, -1) ∧ g.elemTA t = (-1, -1) ∧ g.t2TA t = .error .system := by
  refine ⟨{ tau := 1, e := 1 - 1 / 10 ^ 15, Tp := 0, err := err }, ⟨by norm_num, by norm_num, by norm_num⟩, rfl, 1 / 10 ^ 13, ?_⟩
  have hs : Glob.solve { tau := 1, e := 1 - 1 / 10 ^ 15, Tp := 0, err := err } (1 / 10 ^ 13) = none := by
    have hph : Glob.phase { tau := 1, e := 1 - 1 / 10 ^ 15, Tp := 0, err := err } (1 / 10 ^ 13) = 2 * π * (1 / 10 ^ 13) := by
      have hm : modf ((1 / 10 ^ 13 - 0) / 1) = 1 / 10 ^ 13 := by
        unfold modf
        rw [if_pos (by norm_num)]
        have : ⌊((1 / 10 ^ 13 - 0) / 1 : ℝ)⌋ = 0 := by rw [Int.floor_eq_zero_iff]; constructor <;> norm_num
        rw [this]
        norm_num
      simp only [Glob.phase]
      rw [hm, if_neg (by norm_num), if_neg (by norm_num)]
    unfold Glob.solve
    rw [hph]
    exact slow_all (by linarith [pi_gt_d2]) (by linarith [pi_lt_d2]) herr
  refine ⟨?_, ?_, ?_, ?_⟩
  · unfold Glob.t2EA; rw [hs]; rfl
  · unfold Glob.elemEA; rw [hs]
  · unfold Glob.elemTA; rw [hs]
  · unfold Glob.t2TA; rw [hs]

/-- **C109** (velocity, partial).  `v_rad` at a single time, if it returns, is near the velocity of the orbit with the *opposite* longitude of periastron, whatever calls were made before.
Missing: the right sign of the longitude (`C109_violated_velocity`) and arrays of times
(`C109_violated_array`). -/
theorem C109_velocity_partial (g : Glob) {K tau e long T0 v0 t v : ℝ} (he0 : 0 ≤ e) (he1 : e < 1) (ht : tau ≠ 0) (h : vRad g K tau e long T0 v0 t = .ok v) :
    ∃ E, Solves e (mean tau T0 t) E ∧ |v - velocity K e (-long) v0 E| ≤ 4 * |K| * √((1 + e) / (1 - e)) * max g.err 0 := by
  unfold vRad at h
  rcases hs : (g.setupTp tau e T0).t2TA t with x | ⟨c, s⟩
  · rw [hs] at h; cases h
  rw [hs] at h
  have hv := Except.ok.inj h
  obtain ⟨-, E, h1, h2, h3⟩ := C109_TA (g := g.setupTp tau e T0) ⟨he0, he1, ht⟩ hs
  refine ⟨E, h1, ?_⟩
  change |c - cosTA e E| ≤ √((1 + e) / (1 - e)) * (2 * max g.err 0) at h2
  change |s - sinTA e E| ≤ √((1 + e) / (1 - e)) * (2 * max g.err 0) at h3
  have : v - velocity K e (-long) v0 E = K * cos long * (c - cosTA e E) + K * sin long * (s - sinTA e E) := by
    rw [← hv, velocity, cos_neg, sin_neg]
    ring
  rw [this]
  have a : |K * cos long * (c - cosTA e E)| ≤ |K| * (√((1 + e) / (1 - e)) * (2 * max g.err 0)) := by
    rw [abs_mul, abs_mul]
    exact mul_le_mul (by nlinarith [abs_cos_le_one long, abs_nonneg K]) h2 (abs_nonneg _) (abs_nonneg _)
  have b : |K * sin long * (s - sinTA e E)| ≤ |K| * (√((1 + e) / (1 - e)) * (2 * max g.err 0)) := by
    rw [abs_mul, abs_mul]
    exact mul_le_mul (by nlinarith [abs_sin_le_one long, abs_nonneg K]) h3 (abs_nonneg _) (abs_nonneg _)
  refine (abs_add_le _ _).trans ((add_le_add a b).trans_eq ?_)
  ring

/-- **C109 fails for the velocity**: a circular orbit a quarter of a period after passing the reference point has the velocity `v0 - K` for `long = π/2`; `v_rad` returns `v0 + K`. -/
theorem C109_violated_velocity (g : Glob) (K v0 : ℝ) : vRad g K 1 0 (π / 2) 0 v0 (1 / 4) = .ok (v0 + K) ∧ ∀ E, Solves 0 (mean 1 0 (1 / 4)) E → velocity K 0 (π / 2) v0 E = v0 - K := by
  constructor
  · have hph : (g.setupTp 1 0 0).phase (1 / 4) = π / 2 := by
      have hm : modf ((1 / 4 - 0) / 1) = 1 / 4 := by
        unfold modf
        rw [if_pos (by norm_num)]
        have : ⌊((1 / 4 - 0) / 1 : ℝ)⌋ = 0 := by rw [Int.floor_eq_zero_iff]; constructor <;> norm_num
        rw [this]
        norm_num
      have hm' : modf ((1 / 4 - (g.setupTp 1 0 0).Tp) / (g.setupTp 1 0 0).tau) = 1 / 4 := hm
      unfold Glob.phase
      rw [hm']
      dsimp only
      rw [if_neg (by norm_num), if_neg (by norm_num)]
      ring
    have hs : (g.setupTp 1 0 0).solve (1 / 4) = some (π / 2) := by
      unfold Glob.solve
      rw [hph]
      show newton 0 (π / 2) g.err 20 (guess 0 (π / 2)) (-π) π = _
      have : guess 0 (π / 2) = π / 2 := by simp [guess]
      rw [this, newton]
      have : ¬ π / 2 < -π := by linarith [pi_pos]
      simp [this]
    have ht : (g.setupTp 1 0 0).t2TA (1 / 4) = .ok (0, 1) := by
      unfold Glob.t2TA
      rw [hs]
      show Except.ok (trueAnom 0 (π / 2)) = _
      rw [trueAnom_eq le_rfl one_pos ⟨by linarith [pi_pos], by linarith [pi_pos]⟩]
      simp [cosTA, sinTA]
    unfold vRad
    rw [ht]
    simp
  · intro E hE
    have : E = π / 2 := by
      unfold Solves mean at hE
      linarith
    rw [this]
    simp [velocity, cosTA, sinTA]
    ring

/-- **C109 fails for an array of times**: `v_rad` raises ValueError for every array that does not have two elements … -/
theorem C109_violated_array (g : Glob) (K tau e long T0 v0 : ℝ) (ts : List ℝ) (h : ts.length ≠ 2) : vRadArr g K tau e long T0 v0 ts = .error .value := by
  unfold vRadArr Glob.vt2TA
  match ts, h with
  | [], _ => rfl
  | [_], _ => rfl
  | [_, _], h => exact absurd rfl h
  | _ :: _ :: _ :: _, _ => rfl

/-- … and for two it mixes the two times: the first "velocity" has the cosine of the first and the cosine of the second true anomaly. -/
theorem C109_violated_two (g : Glob) (K tau e long T0 v0 t u : ℝ) :
    vRadArr g K tau e long T0 v0 [t, u] = .ok [v0 + K * cos long * (e + ((g.setupTp tau e T0).elemTA t).1) + K * sin long * ((g.setupTp tau e T0).elemTA u).1,
      v0 + K * cos long * (e + ((g.setupTp tau e T0).elemTA t).2) + K * sin long * ((g.setupTp tau e T0).elemTA u).2] := rfl

/-- **C109** (`Orbit`, partial).  Where the module's globals `tau`, `e` and `T0` happen to be those of the orbit, every velocity is near that of the orbit, with the longitude of periastron as documented;
a later call without times gives the same again.
Missing: other globals (`C109_violated_globals`) and importing the module (`C109_violated_orbit`). -/
theorem C109_orbit_partial (w : World) (he0 : 0 ≤ w.o.e) (he1 : w.o.e < 1) (ht : w.o.tau ≠ 0) (herr : (w.o.e ≤ 98 / 100 ∧ 1 / 10 ^ 8 ≤ w.g.err) ∨ (w.o.e ≤ 99 / 100 ∧ 1 / 10 ^ 5 ≤ w.g.err))
    (ts : List ℝ) : ∃ w' vs, w.method (some (w.o.tau, w.o.e, w.o.T0)) Orbit.vRad0 (some ts) = (w', .ok vs) ∧ w'.method (some (w.o.tau, w.o.e, w.o.T0)) Orbit.vRad0 none = (w', .ok vs) ∧
      List.Forall₂ (fun t v => ∃ E, Solves w.o.e (mean w.o.tau w.o.T0 t) E ∧ |v - velocity w.o.K w.o.e w.o.long w.o.v0 E| ≤ 4 * |w.o.K| * √((1 + w.o.e) / (1 - w.o.e)) * max w.g.err 0) ts vs := by
  refine ⟨_, _, rfl, rfl, ?_⟩
  rw [List.zipWith_map, List.zipWith_self]
  unfold Glob.vt2TA
  rw [List.map_map, List.forall₂_map_right_iff, List.forall₂_same]
  intro t _
  have hg : Ellipse (w.g.setupTp w.o.tau w.o.e w.o.T0) := ⟨he0, he1, ht⟩
  obtain ⟨-, ⟨⟨c, s⟩, hcs⟩, -⟩ := C109_converges_partial hg herr t
  obtain ⟨-, E, h1, h2, h3⟩ := C109_TA hg hcs
  refine ⟨E, h1, ?_⟩
  have hel := (C109_arrays (w.g.setupTp w.o.tau w.o.e w.o.T0) []).1 t _ hcs
  simp only [Function.comp, hel]
  change |c - cosTA w.o.e E| ≤ √((1 + w.o.e) / (1 - w.o.e)) * (2 * max w.g.err 0) at h2
  change |s - sinTA w.o.e E| ≤ √((1 + w.o.e) / (1 - w.o.e)) * (2 * max w.g.err 0) at h3
  generalize w.o.long = long
  generalize w.o.v0 = v0
  generalize w.o.K = K
  generalize w.o.e = e at *
  have : v0 + K * cos long * (e + c) - K * sin long * s - velocity K e long v0 E = K * cos long * (c - cosTA e E) + -(K * sin long * (s - sinTA e E)) := by
    rw [velocity]
    ring
  rw [this]
  have a : |K * cos long * (c - cosTA e E)| ≤ |K| * (√((1 + e) / (1 - e)) * (2 * max w.g.err 0)) := by
    rw [abs_mul, abs_mul]
    exact mul_le_mul (by nlinarith [abs_cos_le_one long, abs_nonneg K]) h2 (abs_nonneg _) (abs_nonneg _)
  have b : |K * sin long * (s - sinTA e E)| ≤ |K| * (√((1 + e) / (1 - e)) * (2 * max w.g.err 0)) := by
    rw [abs_mul, abs_mul]
    exact mul_le_mul (by nlinarith [abs_sin_le_one long, abs_nonneg K]) h3 (abs_nonneg _) (abs_nonneg _)
  refine (abs_add_le _ _).trans ?_
  rw [abs_neg]
  refine (add_le_add a b).trans_eq ?_
  ring

/-- **C109 fails for `Orbit`** in every program that imports the module: every call of every method raises an exception, whatever was called before. -/
theorem C109_violated_orbit (K tau e long T0 v0 : ℝ) (g : Glob) (cs : List Call) (c : Call) :
    ((World.run none { o := { K, tau, e, long, T0, v0 }, g := g } cs).call none c).2 ≠ none := by
  have step : ∀ (w : World) (c : Call), w.o.csTA = none → (w.call none c).1 = w ∧ (w.call none c).2 ≠ none := by
    intro w c hw
    cases c with
    | eccAnom ts => exact ⟨rfl, by simp [World.call, World.eccAnom]⟩
    | trueAnom ts => exact ⟨rfl, by simp [World.call, World.trueAnom]⟩
    | K1 ts => cases ts <;> simp [World.call, World.method, World.trueAnom, Orbit.K1, hw]
    | K2 ts => cases ts <;> simp [World.call, World.method, World.trueAnom, Orbit.K2, hw]
    | vRad ts => cases ts <;> simp [World.call, World.method, World.trueAnom, Orbit.vRad0, Orbit.K1, hw]
    | phaseVel n =>
      by_cases h : n = 1
      · simp [World.call, World.phaseVel, h]
      · simp [World.call, World.phaseVel, h, World.method, World.trueAnom]
  have inv : ∀ (cs : List Call) (w : World), w.o.csTA = none → World.run none w cs = w := by
    intro cs
    induction cs with
    | nil => intro w _; rfl
    | cons c cs ih =>
      intro w hw
      rw [World.run, (step w c hw).1]
      exact ih w hw
  rw [inv cs _ rfl]
  exact (step _ c rfl).2

/-- … and where the module has such globals, they replace the parameters of every orbit: two orbits that differ only in these have the same velocities. -/
theorem C109_violated_globals (w : World) (q : ℝ × ℝ × ℝ) (tau T0 : ℝ) (ts : List ℝ) :
    (w.method (some q) Orbit.vRad0 (some ts)).2 = (({ w with o := { w.o with tau := tau, T0 := T0 } } : World).method (some q) Orbit.vRad0 (some ts)).2 := rfl

end Verif.Signals.Kepler
