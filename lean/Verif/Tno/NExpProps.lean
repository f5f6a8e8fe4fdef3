import Verif.Tno.NExpLemmas
import Verif.Tno.SigmaProps

/-!
# Property C163: the expected number of detected objects
-/

set_option linter.unusedSectionVars false

noncomputable section

namespace Verif.Tno

open Set MeasureTheory

/-- The types of survey for which the integral stops before the magnitude limit although objects beyond can be detected. -/
def Eff.cutShort : Eff → Prop
  | .tanhCut .. | .erfc2 .. | .erfcRt2 .. => True
  | _ => False

theorem eta_antitone {erfcc : ℝ → ℝ} (H : ErfcLike erfcc) (e : Eff) (hs : e.sensible) : Antitone (eta erfcc e) :=
  fun _ _ h => C160_decreasing H e hs h

theorem zero_tail {et sg : ℝ → ℝ} {a b c : ℝ} (hi : ∀ a b, IntervalIntegrable (fun m => et m * sg m) volume a b) (hbc : b ≤ c) (hz : ∀ m, b < m → et m = 0) :
    ∫ m in a..b, et m * sg m = ∫ m in a..c, et m * sg m := by
  rw [← intervalIntegral.integral_add_adjacent_intervals (hi a b) (hi b c)]
  have : ∫ m in b..c, et m * sg m = 0 := by
    rw [intervalIntegral.integral_of_le hbc]
    rw [setIntegral_congr_fun (g := fun _ => 0) measurableSet_Ioc fun m hm => by simp [hz m hm.1]]
    simp
  rw [this, add_zero]

/-- C163: whenever `N_exp` gives a number, it is area times the integral of efficiency times density over all magnitudes between the limits, for every density that is positive and continuous, and the efficiencies that are not cut short.

Missing: `tanh_cut`, `erfc2` and `erfc-rt2` (`C163_short`, `C163_violated_tail`), and the accuracy of the Romberg quadrature, which is exact here (see C154). -/
theorem C163_expected_partial {Q : (ℝ → ℝ) → ℝ → ℝ → ℝ} (hQ : ∀ f a b, Q f a b = ∫ x in a..b, f x) {erfcc : ℝ → ℝ} (H : ErfcLike erfcc)
    {sg : ℝ → ℝ} (hs : ∀ m, 0 < sg m) (hc : Continuous sg) {area mlo mhi N : ℝ} {e : Eff} (he : e.sensible) (ha : e.accepted mlo mhi)
    (hp : e ≠ .perfect) (hcut : ¬ e.cutShort) (h : nExp Q erfcc sg area mlo mhi e = some N) :
    N = area * ∫ m in mlo..mhi, eta erfcc e m * sg m := by
  have hanti := eta_antitone H e he
  have hi := fun a b => integrable (sg := sg) hanti hc a b
  have key : ∀ l, breaks mlo mhi e = mlo :: l → N = area * ∫ m in mlo..(mlo :: l).getLast (by simp), eta erfcc e m * sg m := fun l hl =>
    pieces_eq hi (fun a b v hv => nExpRng_eq hQ hanti (eta_nonneg H e he) hs hv) mlo l N (by rw [← hl]; exact h)
  cases e with
  | perfect => exact absurd rfl hp
  | pritchett mc alpha => exact key _ rfl
  | heaviside A mcut =>
      rw [key _ rfl]
      congr 1
      refine zero_tail hi (not_lt.1 ha.2) fun m hm => ?_
      simp only [List.getLast_cons_cons, List.getLast_singleton] at hm
      rw [eta, if_pos hm]
  | tanh A mc dm => exact key _ rfl
  | topc A mc dm =>
      rw [key _ rfl]
      congr 1
      refine zero_tail hi (not_lt.1 ha.2) fun m hm => ?_
      simp only [List.getLast_cons_cons, List.getLast_singleton] at hm
      rw [eta, if_pos (le_of_lt hm)]
  | linear m1 m2 =>
      rw [key _ rfl]
      congr 1
      refine zero_tail hi (not_lt.1 ha.2) fun m hm => ?_
      simp only [List.getLast_cons_cons, List.getLast_singleton] at hm
      rw [eta, if_pos hm]
  | tanhCut => exact absurd trivial hcut
  | tanhp1 A mc dm => exact key _ rfl
  | dbltanh A mc dm dm2 => exact key _ rfl
  | erfc2 => exact absurd trivial hcut
  | erfcRt2 => exact absurd trivial hcut

/-- C163: the types that are cut short integrate up to six widths beyond the cutoff, or to the limit if that is nearer. -/
theorem C163_short {Q : (ℝ → ℝ) → ℝ → ℝ → ℝ} (hQ : ∀ f a b, Q f a b = ∫ x in a..b, f x) {erfcc : ℝ → ℝ} (H : ErfcLike erfcc)
    {sg : ℝ → ℝ} (hs : ∀ m, 0 < sg m) (hc : Continuous sg) {area mlo mhi N A mc dm : ℝ} (hA : 0 ≤ A ∧ A ≤ 1 ∧ 0 < dm) :
    (nExp Q erfcc sg area mlo mhi (.erfc2 A mc dm) = some N → N = area * ∫ m in mlo..min (mc + 6 * dm) mhi, eta erfcc (.erfc2 A mc dm) m * sg m) ∧
    (nExp Q erfcc sg area mlo mhi (.erfcRt2 A mc dm) = some N → N = area * ∫ m in mlo..min (mc + 6 * dm) mhi, eta erfcc (.erfcRt2 A mc dm) m * sg m) ∧
    (∀ cut w, 0 < w → mc + 1.5 * dm ≤ cut + 6 * w → nExp Q erfcc sg area mlo mhi (.tanhCut A mc dm cut w) = some N →
      N = area * ∫ m in mlo..min (cut + 6 * w) mhi, eta erfcc (.tanhCut A mc dm cut w) m * sg m) := by
  have key : ∀ e : Eff, e.sensible → nExp Q erfcc sg area mlo mhi e = some N → ∀ l, breaks mlo mhi e = mlo :: l →
      N = area * ∫ m in mlo..(mlo :: l).getLast (by simp), eta erfcc e m * sg m := fun e he h l hl =>
    pieces_eq (fun a b => integrable (sg := sg) (eta_antitone H e he) hc a b)
      (fun a b v hv => nExpRng_eq hQ (eta_antitone H e he) (eta_nonneg H e he) hs hv) mlo l N (by rw [← hl]; exact h)
  refine ⟨fun h => key (.erfc2 A mc dm) hA h _ rfl, fun h => key (.erfcRt2 A mc dm) hA h _ rfl, fun cut w hw hle h => ?_⟩
  have h1 := key (.tanhCut A mc dm cut w) ⟨hA.1, hA.2.1, hA.2.2, hw⟩ h _ rfl
  rw [h1]
  simp only [List.getLast_cons_cons, List.getLast_singleton]
  congr 2
  have hd := hA.2.2
  have : min (if cut < mc then max (mc + 1.5 * dm) (if cut < mc then cut + 1.5 * w else mc + 1.5 * dm)
      else max (cut + 1.5 * w) (if cut < mc then cut + 1.5 * w else mc + 1.5 * dm)) mhi ≤ cut + 6 * w := by
    refine (min_le_left _ _).trans ?_
    split_ifs
    · exact max_le hle (by linarith)
    · exact max_le (by linarith) hle
  rw [max_eq_left this]

/-- C163 fails for `erfc2`: objects fainter than six widths beyond the cutoff are detected with positive probability but not expected, so the expected number is too small. -/
theorem C163_violated_tail {Q : (ℝ → ℝ) → ℝ → ℝ → ℝ} (hQ : ∀ f a b, Q f a b = ∫ x in a..b, f x) {erfcc : ℝ → ℝ} (H : ErfcLike erfcc) (hpos : ∀ x, 0 < erfcc x)
    {sg : ℝ → ℝ} (hs : ∀ m, 0 < sg m) (hc : Continuous sg) {area mlo mhi N A mc dm : ℝ} (hA : 0 < A) (hA1 : A ≤ 1) (hd : 0 < dm) (harea : 0 < area)
    (hlim : mc + 6 * dm < mhi) (h : nExp Q erfcc sg area mlo mhi (.erfc2 A mc dm) = some N) :
    N < area * ∫ m in mlo..mhi, eta erfcc (.erfc2 A mc dm) m * sg m := by
  have hse : (Eff.erfc2 A mc dm).sensible := ⟨hA.le, hA1, hd⟩
  have hanti := eta_antitone H _ hse
  have hi := fun a b => integrable (sg := sg) hanti hc a b
  rw [(C163_short hQ H hs hc ⟨hA.le, hA1, hd⟩).1 h, min_eq_left hlim.le, ← intervalIntegral.integral_add_adjacent_intervals (hi mlo (mc + 6 * dm)) (hi (mc + 6 * dm) mhi)]
  refine mul_lt_mul_of_pos_left (lt_add_of_pos_right _ ?_) harea
  refine intervalIntegral.intervalIntegral_pos_of_pos (hi _ _) (fun m => ?_) hlim
  have := hpos (clip (0.5 * (m - mc) / dm))
  have := hs m
  simp only [eta]
  positivity

/-- C163: `N_exp` gives a number unless two successive break points of the quadrature coincide. -/
theorem C163_number (Q : (ℝ → ℝ) → ℝ → ℝ → ℝ) (erfcc sg : ℝ → ℝ) (area mlo mhi : ℝ) (e : Eff) (h : (breaks mlo mhi e).IsChain (· ≠ ·)) :
    ∃ N, nExp Q erfcc sg area mlo mhi e = some N :=
  pieces_number (fun _ _ hab => nExpRng_number Q _ _ _ hab) _ h

/-- C163 fails at coinciding break points: with a cutoff whose smooth end reaches the upper limit of the quadrature, an accepted `tanh_cut` survey has an expected number that is not a number, whatever the quadrature. -/
theorem C163_violated_nan (Q : (ℝ → ℝ) → ℝ → ℝ → ℝ) {erfcc : ℝ → ℝ} (hpos : ∀ x, 0 < erfcc x) {sg : ℝ → ℝ} (hs : ∀ m, 0 < sg m)
    {area mlo mhi A mc dm cut w : ℝ} (hA : 0 < A) (hd : 0 < dm) (hw : 0 < w) (hlim : mhi ≤ max (mc + 1.5 * dm) (cut + 1.5 * w)) :
    nExp Q erfcc sg area mlo mhi (.tanhCut A mc dm cut w) = none := by
  have h3 : min (if cut < mc then max (mc + 1.5 * dm) (if cut < mc then cut + 1.5 * w else mc + 1.5 * dm)
      else max (cut + 1.5 * w) (if cut < mc then cut + 1.5 * w else mc + 1.5 * dm)) mhi = mhi := by
    refine min_eq_right (hlim.trans ?_)
    split_ifs
    · exact le_rfl
    · exact (max_comm _ _).le
  have hnone : nExpRng Q (eta erfcc (.tanhCut A mc dm cut w)) sg area mhi mhi = none := by
    have hp : 0 < sg mhi * eta erfcc (.tanhCut A mc dm cut w) mhi := by
      have h1 := hpos (clip ((mhi - cut) / (rt2 * w)))
      have h2 : 0 < 1 - Real.tanh (clip ((mhi - mc) / dm)) := by linarith [tanh_lt_one (clip ((mhi - mc) / dm))]
      have := hs mhi
      simp only [eta]
      positivity
    simp only [nExpRng]
    rw [if_neg (fun h => hp.ne' h.1), if_pos ⟨hp, hp, trivial⟩]
  simp only [nExp, breaks]
  rw [h3]
  simp only [min_eq_right, le_max_right]
  simp only [pieces, hnone, plus]
  split <;> simp_all

/-- A pritchett survey that reaches two magnitudes beyond the cutoff, with the density of `C161_cumulative`. -/
example : ∃ N, nExp (fun f a b => ∫ x in a..b, f x) (fun _ => 1) (sigma (setParams 1 0 23.3 0.6 0 0)) 2 18 28 (.pritchett 25 3) = some N :=
  C163_number _ _ _ _ _ _ _ (by rw [breaks]; norm_num)

example : (Eff.pritchett 25 3).sensible ∧ (Eff.pritchett 25 3).accepted 18 28 ∧ Eff.pritchett 25 3 ≠ .perfect ∧ ¬ (Eff.pritchett 25 3).cutShort
    ∧ (∀ m, 0 < sigma (setParams 1 0 23.3 0.6 0 0) m) ∧ Continuous (sigma (setParams 1 0 23.3 0.6 0 0)) := by
  have := l10_pos
  have e : sigma (setParams 1 0 23.3 0.6 0 0) = fun m => l10 * 0.6 * Real.exp (l10 * 0.6 * (m - 23.3)) := by
    funext m; simp only [sigma, setParams, if_pos]
  refine ⟨by norm_num [Eff.sensible], by norm_num [Eff.accepted], by simp, fun h => h, fun m => ?_, ?_⟩
  · rw [e]; positivity
  · rw [e]; fun_prop

/-- A survey with a smooth end one magnitude below the limit and of width one is accepted, and meets the condition of `C163_violated_nan`. -/
example : (Eff.tanhCut 0.5 25 0.3 27 1).accepted 18 28 ∧ (Eff.tanhCut 0.5 25 0.3 27 1).sensible ∧ (28 : ℝ) ≤ max (25 + 1.5 * 0.3) (27 + 1.5 * 1) := by
  refine ⟨by norm_num [Eff.accepted], by norm_num [Eff.sensible], by norm_num⟩

end Verif.Tno
