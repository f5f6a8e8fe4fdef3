import Verif.Tno.Tno
import Mathlib.Analysis.SpecialFunctions.Arsinh

/-!
# Property C160: detection efficiencies
-/

set_option linter.unusedSectionVars false

noncomputable section

namespace Verif.Tno

/-- What a complementary error function is assumed to satisfy: values between 0 and 2, never increasing. -/
structure ErfcLike (erfcc : ℝ → ℝ) : Prop where
  anti : Antitone erfcc
  nonneg : ∀ x, 0 ≤ erfcc x
  le_two : ∀ x, erfcc x ≤ 2

/-- The parameters a survey reports: an amplitude `A` between 0 and 1, positive widths, a slope that is not negative, break points in order. -/
def Eff.sensible : Eff → Prop
  | .perfect => True
  | .pritchett _ alpha => 0 ≤ alpha
  | .heaviside A _ => 0 ≤ A ∧ A ≤ 1
  | .tanh A _ dm => 0 ≤ A ∧ A ≤ 1 ∧ 0 < dm
  | .topc A _ dm => 0 ≤ A ∧ A ≤ 1 ∧ 0 < dm
  | .linear m1 m2 => m1 < m2
  | .tanhCut A _ dm _ w => 0 ≤ A ∧ A ≤ 1 ∧ 0 < dm ∧ 0 < w
  | .tanhp1 A _ dm => 0 ≤ A ∧ A ≤ 1 ∧ 0 < dm
  | .dbltanh A _ dm dm2 => 0 ≤ A ∧ A ≤ 1 ∧ 0 < dm ∧ 0 < dm2
  | .erfc2 A _ dm => 0 ≤ A ∧ A ≤ 1 ∧ 0 < dm
  | .erfcRt2 A _ dm => 0 ≤ A ∧ A ≤ 1 ∧ 0 < dm

/-- The types for which the tanh is not halved. -/
def Eff.unhalved : Eff → Prop
  | .tanh .. | .tanhCut .. | .tanhp1 .. => True
  | _ => False

theorem tanh_strictMono : StrictMono Real.tanh := by
  intro a b h
  rw [Real.tanh_eq_sinh_div_cosh, Real.tanh_eq_sinh_div_cosh, div_lt_div_iff₀ (Real.cosh_pos a) (Real.cosh_pos b)]
  have := Real.sinh_pos_iff.2 (sub_pos.2 h)
  rw [Real.sinh_sub] at this
  linarith

theorem tanh_lt_one (x : ℝ) : Real.tanh x < 1 := by
  rw [Real.tanh_eq_sinh_div_cosh, div_lt_one (Real.cosh_pos x)]
  have := Real.cosh_sub_sinh x
  linarith [Real.exp_pos (-x)]

theorem neg_one_lt_tanh (x : ℝ) : -1 < Real.tanh x := by
  have := tanh_lt_one (-x)
  rw [Real.tanh_neg] at this
  linarith

theorem clip_mono : Monotone clip := fun a b h => min_le_min_right _ (max_le_max_right _ h)

theorem rt2_pos : 0 < rt2 := by norm_num [rt2]

theorem down_mono {dm mc : ℝ} (h : 0 < dm) : Monotone fun m : ℝ => (m - mc) / dm := fun a b hab => by
  dsimp only
  gcongr

theorem tanhDown {A mc dm : ℝ} (hA : 0 ≤ A) (h : 0 < dm) : Antitone fun m => A * (1 - Real.tanh (clip ((m - mc) / dm))) := fun a b hab => by
  have := tanh_strictMono.monotone (clip_mono (down_mono (mc := mc) h hab))
  exact mul_le_mul_of_nonneg_left (by linarith) hA

theorem tanhDown_nonneg {A x : ℝ} (hA : 0 ≤ A) : 0 ≤ A * (1 - Real.tanh x) :=
  mul_nonneg hA (by linarith [tanh_lt_one x])

theorem anti_mul {f g : ℝ → ℝ} (hf : Antitone f) (hg : Antitone g) (f0 : ∀ x, 0 ≤ f x) (g0 : ∀ x, 0 ≤ g x) : Antitone fun x => f x * g x :=
  fun a b h => mul_le_mul (hf h) (hg h) (g0 b) (f0 a)

theorem root_mono : Monotone fun x : ℝ => x / √(1 + x ^ 2) := by
  intro a b h
  have ha : 0 < √(1 + a ^ 2) := Real.sqrt_pos.2 (by positivity)
  have hb : 0 < √(1 + b ^ 2) := Real.sqrt_pos.2 (by positivity)
  have e : ∀ x : ℝ, x / √(1 + x ^ 2) = Real.tanh (Real.arsinh x) := fun x => by
    rw [Real.tanh_eq_sinh_div_cosh, Real.sinh_arsinh, Real.cosh_arsinh]
  simp only [e]
  exact tanh_strictMono.monotone (Real.arsinh_le_arsinh.2 h)

theorem root_lt (x : ℝ) : x / √(1 + x ^ 2) < 1 ∧ -1 < x / √(1 + x ^ 2) := by
  have e : x / √(1 + x ^ 2) = Real.tanh (Real.arsinh x) := by
    rw [Real.tanh_eq_sinh_div_cosh, Real.sinh_arsinh, Real.cosh_arsinh]
  rw [e]
  exact ⟨tanh_lt_one _, neg_one_lt_tanh _⟩

theorem eta_nonneg {erfcc : ℝ → ℝ} (H : ErfcLike erfcc) (e : Eff) (hs : e.sensible) (m : ℝ) : 0 ≤ eta erfcc e m := by
  cases e with
  | perfect => exact zero_le_one
  | pritchett mc alpha => exact mul_nonneg (by norm_num) (by linarith [(root_lt (alpha * (m - mc))).1])
  | heaviside A mcut => rw [eta]; split_ifs; exacts [le_rfl, hs.1]
  | tanh A mc dm => exact tanhDown_nonneg hs.1
  | topc A mc dm =>
      rw [eta]; split_ifs
      · exact le_rfl
      · have := hs.1; positivity
  | linear m1 m2 =>
      rw [eta]; split_ifs with h1 h2
      · exact le_rfl
      · have : (m - m1) / (m2 - m1) ≤ 1 := by rw [div_le_one (sub_pos.2 hs)]; linarith
        linarith
      · exact zero_le_one
  | tanhCut A mc dm cut w =>
      exact mul_nonneg (mul_nonneg (tanhDown_nonneg hs.1) (by norm_num)) (H.nonneg _)
  | tanhp1 A mc dm => exact mul_nonneg hs.1 (by linarith [neg_one_lt_tanh (clip ((mc - m) / dm))])
  | dbltanh A mc dm dm2 =>
      exact mul_nonneg (tanhDown_nonneg (mul_nonneg (by norm_num) hs.1)) (by linarith [tanh_lt_one ((m - mc) / dm2)])
  | erfc2 A mc dm => exact mul_nonneg (mul_nonneg (by norm_num) hs.1) (H.nonneg _)
  | erfcRt2 A mc dm => exact mul_nonneg (mul_nonneg (by norm_num) hs.1) (H.nonneg _)

/-- C160: whatever the type of survey, the efficiency never increases with magnitude. -/
theorem C160_decreasing {erfcc : ℝ → ℝ} (H : ErfcLike erfcc) (e : Eff) (hs : e.sensible) {m m' : ℝ} (h : m ≤ m') :
    eta erfcc e m' ≤ eta erfcc e m := by
  cases e with
  | perfect => exact le_rfl
  | pritchett mc alpha =>
      have : alpha * (m - mc) ≤ alpha * (m' - mc) := mul_le_mul_of_nonneg_left (by linarith) hs
      have := root_mono this
      dsimp only at this
      simp only [eta]
      linarith
  | heaviside A mcut =>
      simp only [eta]; split_ifs
      · exact le_rfl
      · exact hs.1
      · linarith
      · exact le_rfl
  | tanh A mc dm => exact tanhDown hs.1 hs.2.2 h
  | topc A mc dm =>
      have hd := hs.2.2
      have hA := hs.1
      simp only [eta]; split_ifs with h1 h2 h2
      · exact le_rfl
      · positivity
      · linarith
      · push Not at h1 h2
        have h0 : 0 ≤ (mc - m') / dm := div_nonneg (by linarith) hd.le
        have h3 : (mc - m') / dm ≤ (mc - m) / dm := by gcongr
        have h4 : ((mc - m') / dm) ^ 2 ≤ ((mc - m) / dm) ^ 2 := by gcongr
        rw [mul_div_assoc, mul_div_assoc]
        refine mul_le_mul_of_nonneg_left ?_ hA
        rw [div_le_div_iff₀ (by positivity) (by positivity)]
        linarith
  | linear m1 m2 =>
      have hd : 0 < m2 - m1 := sub_pos.2 hs
      have hnn := eta_nonneg H (.linear m1 m2) hs m
      simp only [eta] at hnn ⊢
      split_ifs at hnn ⊢ with h1 h2 h3 h4 h5 h6 h7
      all_goals first
        | exact le_rfl
        | linarith
        | (have : (m - m1) / (m2 - m1) ≤ (m' - m1) / (m2 - m1) := by gcongr
           linarith)
        | (have : 0 ≤ (m' - m1) / (m2 - m1) := div_nonneg (by linarith) hd.le
           linarith)
  | tanhCut A mc dm cut w =>
      have h2 : Antitone fun m => erfcc (clip ((m - cut) / (rt2 * w))) := fun a b hab =>
        H.anti (clip_mono (down_mono (mul_pos rt2_pos hs.2.2.2) hab))
      have h1 : Antitone fun m => A * (1 - Real.tanh (clip ((m - mc) / dm))) * 0.5 := fun a b hab =>
        mul_le_mul_of_nonneg_right (tanhDown hs.1 hs.2.2.1 hab) (by norm_num)
      exact anti_mul h1 h2 (fun x => mul_nonneg (tanhDown_nonneg hs.1) (by norm_num)) (fun x => H.nonneg _) h
  | tanhp1 A mc dm =>
      have hd := hs.2.2
      have h3 : (mc - m') / dm ≤ (mc - m) / dm := by gcongr
      have := tanh_strictMono.monotone (clip_mono h3)
      exact mul_le_mul_of_nonneg_left (by linarith) hs.1
  | dbltanh A mc dm dm2 =>
      have h2 : Antitone fun m => 1 - Real.tanh ((m - mc) / dm2) := fun a b hab => by
        have := tanh_strictMono.monotone (down_mono (mc := mc) hs.2.2.2 hab)
        dsimp only at this ⊢
        linarith
      exact anti_mul (tanhDown (mul_nonneg (by norm_num) hs.1) hs.2.2.1) h2 (fun x => tanhDown_nonneg (mul_nonneg (by norm_num) hs.1))
        (fun x => by linarith [tanh_lt_one ((x - mc) / dm2)]) h
  | erfc2 A mc dm =>
      have hd := hs.2.2
      have : 0.5 * (m - mc) / dm ≤ 0.5 * (m' - mc) / dm := by gcongr
      exact mul_le_mul_of_nonneg_left (H.anti (clip_mono this)) (mul_nonneg (by norm_num) hs.1)
  | erfcRt2 A mc dm =>
      exact mul_le_mul_of_nonneg_left (H.anti (clip_mono (down_mono (mul_pos rt2_pos hs.2.2) h))) (mul_nonneg (by norm_num) hs.1)

/-- C160: the efficiency is never negative, and never above one, unless the survey is one of the three types with a tanh that is not halved.

Missing: those three types (`C160_violated_tanh`; they stay below twice the amplitude, `C160_twice`). -/
theorem C160_range_partial {erfcc : ℝ → ℝ} (H : ErfcLike erfcc) (e : Eff) (hs : e.sensible) (m : ℝ) :
    0 ≤ eta erfcc e m ∧ (¬ e.unhalved → eta erfcc e m ≤ 1) := by
  refine ⟨eta_nonneg H e hs m, fun hu => ?_⟩
  cases e with
  | perfect => exact le_rfl
  | pritchett mc alpha =>
      have := (root_lt (alpha * (m - mc))).2
      simp only [eta]
      linarith
  | heaviside A mcut => rw [eta]; split_ifs; exacts [zero_le_one, hs.2]
  | topc A mc dm =>
      rw [eta]; split_ifs
      · exact zero_le_one
      · have hA := hs.1
        have h1 := hs.2.1
        simp only
        have := sq_nonneg ((mc - m) / dm)
        rw [div_le_one (by positivity)]
        nlinarith
  | linear m1 m2 =>
      rw [eta]; split_ifs with h1 h2
      · exact zero_le_one
      · have : 0 ≤ (m - m1) / (m2 - m1) := div_nonneg (by linarith) (sub_pos.2 hs).le
        linarith
      · exact le_rfl
  | dbltanh A mc dm dm2 =>
      have a1 := neg_one_lt_tanh (clip ((m - mc) / dm))
      have a2 := neg_one_lt_tanh ((m - mc) / dm2)
      have b1 := tanh_lt_one (clip ((m - mc) / dm))
      have b2 := tanh_lt_one ((m - mc) / dm2)
      have hA := hs.1
      have h1 := hs.2.1
      have : (1 - Real.tanh (clip ((m - mc) / dm))) * (1 - Real.tanh ((m - mc) / dm2)) ≤ 4 := by nlinarith
      have h0 : 0 ≤ (1 - Real.tanh (clip ((m - mc) / dm))) * (1 - Real.tanh ((m - mc) / dm2)) := mul_nonneg (by linarith) (by linarith)
      simp only [eta]
      rw [mul_assoc]
      nlinarith
  | erfc2 A mc dm =>
      have := H.le_two (clip (0.5 * (m - mc) / dm))
      have h0 := H.nonneg (clip (0.5 * (m - mc) / dm))
      simp only [eta]
      nlinarith [hs.1, hs.2.1]
  | erfcRt2 A mc dm =>
      have := H.le_two (clip ((m - mc) / (rt2 * dm)))
      have h0 := H.nonneg (clip ((m - mc) / (rt2 * dm)))
      simp only [eta]
      nlinarith [hs.1, hs.2.1]
  | tanh => exact absurd trivial hu
  | tanhCut => exact absurd trivial hu
  | tanhp1 => exact absurd trivial hu

/-- C160: the amplitude of the types with a tanh is half of what the bright objects are detected with. -/
theorem C160_twice {erfcc : ℝ → ℝ} (H : ErfcLike erfcc) (e : Eff) (hs : e.sensible) (m : ℝ) : eta erfcc e m ≤ 2 := by
  by_cases hu : e.unhalved
  · cases e with
    | tanh A mc dm =>
        have a1 := neg_one_lt_tanh (clip ((m - mc) / dm))
        simp only [eta]
        nlinarith [hs.1, hs.2.1]
    | tanhp1 A mc dm =>
        have a1 := tanh_lt_one (clip ((mc - m) / dm))
        simp only [eta]
        nlinarith [hs.1, hs.2.1]
    | tanhCut A mc dm cut w =>
        have a1 := neg_one_lt_tanh (clip ((m - mc) / dm))
        have a2 := tanh_lt_one (clip ((m - mc) / dm))
        have c1 := H.le_two (clip ((m - cut) / (rt2 * w)))
        have c0 := H.nonneg (clip ((m - cut) / (rt2 * w)))
        have p0 : 0 ≤ A * (1 - Real.tanh (clip ((m - mc) / dm))) := tanhDown_nonneg hs.1
        have p1 : A * (1 - Real.tanh (clip ((m - mc) / dm))) ≤ 2 := by nlinarith [hs.1, hs.2.1]
        simp only [eta]
        nlinarith
    | _ => exact hu.elim
  · linarith [(C160_range_partial H e hs m).2 hu]

/-- C160 fails for `tanh` and `tanhp1`: a survey that detects with amplitude one is accepted, and its efficiency at every magnitude brighter than the cutoff is above one. -/
theorem C160_violated_tanh {mlo mhi mc dm : ℝ} (h1 : mlo ≤ mc) (h2 : mc ≤ mhi) (hd : 0 < dm) {erfcc : ℝ → ℝ} {m : ℝ} (hm : m < mc) :
    (Eff.tanh 1 mc dm).sensible ∧ (Eff.tanh 1 mc dm).accepted mlo mhi ∧ 1 < eta erfcc (.tanh 1 mc dm) m ∧
    (Eff.tanhp1 1 mc dm).sensible ∧ (Eff.tanhp1 1 mc dm).accepted mlo mhi ∧ 1 < eta erfcc (.tanhp1 1 mc dm) m := by
  have hx : (m - mc) / dm < 0 := div_neg_of_neg_of_pos (by linarith) hd
  have hc : clip ((m - mc) / dm) < 0 := by
    rw [clip]; exact min_lt_of_left_lt (max_lt hx (by norm_num))
  have hx' : 0 < (mc - m) / dm := div_pos (by linarith) hd
  have hc' : 0 < clip ((mc - m) / dm) := by
    rw [clip]; exact lt_min (lt_max_of_lt_left hx') (by norm_num)
  have t := tanh_strictMono hc
  have t' := tanh_strictMono hc'
  rw [Real.tanh_zero] at t t'
  refine ⟨⟨by norm_num, by norm_num, hd⟩, ⟨not_lt.2 h1, not_lt.2 h2⟩, ?_, ⟨by norm_num, by norm_num, hd⟩, ⟨not_lt.2 h1, not_lt.2 h2⟩, ?_⟩
  · simp only [eta]; linarith
  · simp only [eta]; linarith

/-- A step is a function like the complementary error function; a survey of each kind has parameters as reported. -/
example : ErfcLike (fun x => if x < 0 then 2 else 0) ∧ (Eff.dbltanh 0.9 24 0.5 0.3).sensible ∧ (Eff.dbltanh 0.9 24 0.5 0.3).accepted 18 28
    ∧ ¬ (Eff.dbltanh 0.9 24 0.5 0.3).unhalved := by
  refine ⟨⟨fun a b h => ?_, fun x => ?_, fun x => ?_⟩, ⟨by norm_num, by norm_num, by norm_num, by norm_num⟩, ⟨by norm_num, by norm_num⟩, fun h => h⟩
  · split_ifs <;> linarith
  · split_ifs <;> norm_num
  · split_ifs <;> norm_num

end Verif.Tno
