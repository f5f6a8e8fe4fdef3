import Verif.Grid.GridQuad
import Verif.Grid.QuadSpec
import Mathlib.Tactic.Linarith
import Mathlib.Tactic.FieldSimp
import Mathlib.Tactic.Positivity

/-!
# Quadrature above a level: helper lemmas
-/

set_option linter.unusedSectionVars false
set_option linter.unusedSimpArgs false

namespace Verif.HPD

section
variable {K : Type*} [Field K] [LinearOrder K] [IsStrictOrderedRing K]

theorem cellGT_comm (c u v : K) : cellGT c u v = cellGT c v u := by
  unfold cellGT
  simp only [max_comm u v, min_comm u v, add_comm u v, and_comm (a := u > c), or_comm (a := u > c)]

theorem cellGT_below {c u v : K} (hu : c < u) (hv : c < v) : cellGT c u v = 1 / 2 * (u + v) := if_pos ⟨hu, hv⟩

theorem cellGT_above {c u v : K} (hu : u ≤ c) (hv : v ≤ c) : cellGT c u v = 0 := by
  unfold cellGT
  rw [if_neg (by rintro ⟨h, _⟩; exact absurd h (not_lt.mpr hu)), if_neg]
  rintro (h | h)
  · exact absurd h (not_lt.mpr hu)
  · exact absurd h (not_lt.mpr hv)

theorem cellGT_mixed {c u v : K} (hu : c < u) (hv : v ≤ c) : cellGT c u v = 1 / 2 * (u + c) * (u - c) / (u - v) := by
  unfold cellGT
  rw [if_neg (by rintro ⟨_, h⟩; exact absurd h (not_lt.mpr hv)), if_pos (Or.inl hu), max_eq_left (by linarith), min_eq_right (by linarith)]

private theorem cell_anti_aux {c c' u v : K} (hv : 0 ≤ v) (huv : v ≤ u) (hc : c ≤ c') : cellGT c' u v ≤ cellGT c u v := by
  rcases lt_or_ge c v with h1 | h1
  · rw [cellGT_below (by linarith) h1]
    rcases lt_or_ge c' v with h2 | h2
    · rw [cellGT_below (by linarith) h2]
    · rcases lt_or_ge c' u with h3 | h3
      · rw [cellGT_mixed h3 h2, div_le_iff₀ (by linarith)]
        nlinarith
      · rw [cellGT_above h3 (by linarith)]; linarith
  · rcases lt_or_ge c u with h2 | h2
    · rw [cellGT_mixed h2 h1]
      rcases lt_or_ge c' u with h3 | h3
      · rw [cellGT_mixed h3 (by linarith)]
        apply div_le_div_of_nonneg_right _ (by linarith)
        nlinarith
      · rw [cellGT_above h3 (by linarith)]
        exact div_nonneg (mul_nonneg (by linarith) (by linarith)) (by linarith)
    · rw [cellGT_above h2 h1, cellGT_above (by linarith) (by linarith)]

theorem cellGT_anti {c c' u v : K} (hu : 0 ≤ u) (hv : 0 ≤ v) (hc : c ≤ c') : cellGT c' u v ≤ cellGT c u v := by
  rcases le_total v u with h | h
  · exact cell_anti_aux hv h hc
  · rw [cellGT_comm c', cellGT_comm c]; exact cell_anti_aux hu h hc

theorem cellGT_le {c u v : K} (hu : 0 ≤ u) (hv : 0 ≤ v) : cellGT c u v ≤ 1 / 2 * (u + v) := by
  have h := cellGT_anti hu hv (min_le_left c (min u v - 1))
  rwa [cellGT_below (c := min c (min u v - 1))] at h
  · have := min_le_right c (min u v - 1); have := min_le_left u v; linarith
  · have := min_le_right c (min u v - 1); have := min_le_right u v; linarith

theorem cellGT_nonneg {c u v : K} (hu : 0 ≤ u) (hv : 0 ≤ v) : 0 ≤ cellGT c u v := by
  have h := cellGT_anti hu hv (le_max_left c (max u v))
  rwa [cellGT_above (c := max c (max u v))] at h
  · exact le_max_of_le_right (le_max_left _ _)
  · exact le_max_of_le_right (le_max_right _ _)

/-- At a level no entry is below, only cells with both ends at the level lose their content. -/
theorem cellGT_min {m u v : K} (hu : m ≤ u) (hv : m ≤ v) : cellGT m u v = 1 / 2 * (u + v) - if u = m ∧ v = m then m else 0 := by
  rcases eq_or_lt_of_le hu with rfl | hu
  · rcases eq_or_lt_of_le hv with rfl | hv
    · rw [cellGT_above (le_refl _) (le_refl _), if_pos ⟨rfl, rfl⟩]; ring
    · rw [cellGT_comm, cellGT_mixed hv (le_refl _), if_neg (by rintro ⟨_, h⟩; exact absurd h (ne_of_gt hv))]
      have : v - m ≠ 0 := by linarith
      field_simp
      ring
  · rw [if_neg (by rintro ⟨h, _⟩; exact absurd h (ne_of_gt hu))]
    rcases eq_or_lt_of_le hv with rfl | hv
    · rw [cellGT_mixed hu (le_refl _)]
      have : u - m ≠ 0 := by linarith
      field_simp
      ring
    · rw [cellGT_below hu hv]; ring

/-! ### The loop -/

theorem qgtLoop_acc (c : K) : ∀ (a : List K) (acc : K), qgtLoop c acc a = acc + qgt1d a c
  | [], acc => by simp [qgtLoop, qgt1d]
  | [_], acc => by simp [qgtLoop, qgt1d]
  | u :: v :: l, acc => by
    rw [qgtLoop, qgtLoop_acc c (v :: l)]
    change _ = acc + qgtLoop c (0 + cellGT c u v) (v :: l)
    rw [qgtLoop_acc c (v :: l)]
    ring

theorem qgt1d_nil (c : K) : qgt1d [] c = 0 := rfl
theorem qgt1d_single (c u : K) : qgt1d [u] c = 0 := rfl
theorem qgt1d_cons (c u v : K) (l : List K) : qgt1d (u :: v :: l) c = cellGT c u v + qgt1d (v :: l) c := by
  rw [qgt1d, qgtLoop, qgtLoop_acc]; ring

theorem qgt1d_anti {c c' : K} (hc : c ≤ c') : ∀ {a : List K}, (∀ x ∈ a, 0 ≤ x) → qgt1d a c' ≤ qgt1d a c
  | [], _ => le_refl _
  | [_], _ => le_refl _
  | u :: v :: l, h => by
    rw [qgt1d_cons, qgt1d_cons]
    exact add_le_add (cellGT_anti (h u (by simp)) (h v (by simp)) hc) (qgt1d_anti hc fun x hx => h x (by simp at hx ⊢; tauto))

theorem qgt1d_zero {c : K} : ∀ {a : List K}, (∀ x ∈ a, x ≤ c) → qgt1d a c = 0
  | [], _ => rfl
  | [_], _ => rfl
  | u :: v :: l, h => by
    rw [qgt1d_cons, cellGT_above (h u (by simp)) (h v (by simp)), qgt1d_zero fun x hx => h x (by simp at hx ⊢; tauto), add_zero]

theorem qgt1d_congr {c d : K} : ∀ {a : List K}, (∀ x ∈ a, c < x) → (∀ x ∈ a, d < x) → qgt1d a c = qgt1d a d
  | [], _, _ => rfl
  | [_], _, _ => rfl
  | u :: v :: l, h, h' => by
    rw [qgt1d_cons, qgt1d_cons, cellGT_below (h u (by simp)) (h v (by simp)), cellGT_below (h' u (by simp)) (h' v (by simp)),
      qgt1d_congr (fun x hx => h x (by simp at hx ⊢; tauto)) (fun x hx => h' x (by simp at hx ⊢; tauto))]

theorem qgt1d_smul {c s : K} (hs : 0 < s) : ∀ {a : List K}, qgt1d (a.map (s * ·)) (s * c) = s * qgt1d a c
  | [] => by simp [qgt1d_nil]
  | [_] => by simp [qgt1d_single]
  | u :: v :: l => by
    have ih := qgt1d_smul (c := c) hs (a := v :: l)
    simp only [List.map_cons] at ih ⊢
    rw [qgt1d_cons, qgt1d_cons, ih, mul_add]
    congr 1
    rcases lt_or_ge c u with h1 | h1 <;> rcases lt_or_ge c v with h2 | h2
    · rw [cellGT_below h1 h2, cellGT_below (mul_lt_mul_of_pos_left h1 hs) (mul_lt_mul_of_pos_left h2 hs)]; ring
    · rw [cellGT_mixed h1 h2, cellGT_mixed (mul_lt_mul_of_pos_left h1 hs) (mul_le_mul_of_nonneg_left h2 hs.le)]
      have : u - v ≠ 0 := by linarith
      have : s * u - s * v ≠ 0 := by rw [← mul_sub]; positivity
      field_simp
    · rw [cellGT_comm, cellGT_comm c, cellGT_mixed h2 h1, cellGT_mixed (mul_lt_mul_of_pos_left h2 hs) (mul_le_mul_of_nonneg_left h1 hs.le)]
      have : v - u ≠ 0 := by linarith
      have : s * v - s * u ≠ 0 := by rw [← mul_sub]; positivity
      field_simp
    · rw [cellGT_above h1 h2, cellGT_above (mul_le_mul_of_nonneg_left h1 hs.le) (mul_le_mul_of_nonneg_left h2 hs.le), mul_zero]

/-! ### Rows -/

/-- Trapezoid rule over rows of a quantity computed for each row. -/
def rowTrap : List K → K
  | u :: v :: l => 1 / 2 * (u + v) + rowTrap (v :: l)
  | _ => 0

theorem qgt2Loop_tail (c : K) (n : ℕ) : ∀ (rs : List (List K)) (r : List K) (i : ℕ) (acc : K), 1 < i → i + rs.length = n →
    qgt2Loop c n i acc (r :: rs) = acc + 1 / 2 * qgt1d r c + rowTrap ((r :: rs).map fun q => qgt1d q c)
  | [], r, i, acc, _, h => by
    simp only [List.length_nil, add_zero] at h
    simp [qgt2Loop, h, rowTrap, qgt1d]
  | q :: rs, r, i, acc, hi, h => by
    simp only [List.length_cons] at h
    rw [qgt2Loop, if_neg (by omega), qgt2Loop_tail c n rs q (i + 1) _ (by omega) (by omega)]
    simp only [List.map_cons, rowTrap, show qgtLoop c 0 r = qgt1d r c from rfl]
    ring

theorem qgt2d_rows (c : K) {a : List (List K)} (h : 2 ≤ a.length) : qgt2d a c = rowTrap (a.map fun r => qgt1d r c) := by
  match a, h with
  | r :: q :: rs, _ =>
    unfold qgt2d
    rw [qgt2Loop, if_pos (Or.inl rfl), qgt2Loop_tail c _ rs q 2 _ (by omega) (by simp; omega)]
    simp only [List.map_cons, rowTrap, show qgtLoop c 0 r = qgt1d r c from rfl]
    ring

theorem rowTrap_le {ι : Type*} (p q : ι → K) : ∀ l : List ι, (∀ i ∈ l, p i ≤ q i) → rowTrap (l.map p) ≤ rowTrap (l.map q)
  | [], _ => le_refl _
  | [_], _ => le_refl _
  | i :: j :: l, h => by
    have ih := rowTrap_le p q (j :: l) fun x hx => h x (by simp at hx ⊢; tauto)
    simp only [List.map_cons] at ih
    simp only [List.map_cons, rowTrap]
    have := h i (by simp)
    have := h j (by simp)
    linarith

theorem rowTrap_zero {ι : Type*} (p : ι → K) : ∀ l : List ι, (∀ i ∈ l, p i = 0) → rowTrap (l.map p) = 0
  | [], _ => rfl
  | [_], _ => rfl
  | i :: j :: l, h => by
    have ih := rowTrap_zero p (j :: l) fun x hx => h x (by simp at hx ⊢; tauto)
    simp only [List.map_cons] at ih
    simp only [List.map_cons, rowTrap, ih]
    simp [h i (by simp), h j (by simp)]

theorem rowTrap_smul {ι : Type*} (s : K) (p : ι → K) : ∀ l : List ι, rowTrap (l.map fun i => s * p i) = s * rowTrap (l.map p)
  | [] => by simp [rowTrap]
  | [_] => by simp [rowTrap]
  | i :: j :: l => by
    have ih := rowTrap_smul s p (j :: l)
    simp only [List.map_cons] at ih
    simp only [List.map_cons, rowTrap, ih]
    ring

end

/-! ### Integrals -/

open MeasureTheory intervalIntegral Verif.Grid1

/-- The part of a function above a level: zero where it does not exceed it. -/
noncomputable def above (c : ℝ) (p : ℝ → ℝ) (x : ℝ) : ℝ := if c < p x then p x else 0

theorem line_integrable (a b u v s t : ℝ) : IntervalIntegrable (fun z => u + (z - a) / (b - a) * (v - u)) volume s t := by
  apply Continuous.intervalIntegrable
  fun_prop

theorem zero_integrable (s t : ℝ) : IntervalIntegrable (fun _ : ℝ => (0 : ℝ)) volume s t := by simp

/-- The content above the level of one cell. -/
theorem cell_above {a b u v c : ℝ} {p : ℝ → ℝ} (hab : a < b) (h : ∀ x, a ≤ x → x ≤ b → p x = u + (x - a) / (b - a) * (v - u)) :
    IntervalIntegrable (above c p) volume a b ∧ ∫ x in a..b, above c p x = (b - a) * cellGT c u v := by
  have hd : 0 < b - a := by linarith
  have hd' : b - a ≠ 0 := ne_of_gt hd
  rcases lt_or_ge c u with h1 | h1 <;> rcases lt_or_ge c v with h2 | h2
  · have e : Set.EqOn (fun z => u + (z - a) / (b - a) * (v - u)) (above c p) (Set.uIoo a b) := by
      intro z hz
      rw [Set.uIoo_of_le hab.le] at hz
      have hz1 := hz.1; have hz2 := hz.2
      unfold above
      rw [h z hz.1.le hz.2.le, if_pos]
      have q1 : 0 ≤ (z - a) / (b - a) := by apply div_nonneg <;> linarith
      have q2 : (z - a) / (b - a) ≤ 1 := by rw [div_le_one hd]; linarith
      rcases le_total u v with q | q <;> nlinarith
    refine ⟨(line_integrable a b u v a b).congr_uIoo e, ?_⟩
    rw [← integral_congr_uIoo e, cell_integral hab, cellGT_below h1 h2]; ring
  · -- decreasing through the level at `t`
    have huv : u - v ≠ 0 := by linarith
    have huv' : 0 < u - v := by linarith
    set t := a + (b - a) * (u - c) / (u - v) with ht
    have hat : a < t := by have : 0 < (b - a) * (u - c) / (u - v) := by apply div_pos (mul_pos hd (by linarith)) huv'
                           linarith
    have htb : t ≤ b := by
      have : (b - a) * (u - c) / (u - v) ≤ b - a := by rw [div_le_iff₀ huv']; apply mul_le_mul_of_nonneg_left <;> linarith
      linarith
    have htu : (t - a) / (b - a) * (v - u) = c - u := by rw [ht]; field_simp; ring
    have hta : t - a ≠ 0 := by linarith
    have e1 : Set.EqOn (fun z => u + (z - a) / (t - a) * (c - u)) (above c p) (Set.uIoo a t) := by
      intro z hz
      rw [Set.uIoo_of_le hat.le] at hz
      have hz1 := hz.1; have hz2 := hz.2
      have e : u + (z - a) / (t - a) * (c - u) = u + (z - a) / (b - a) * (v - u) := by rw [← htu]; field_simp
      unfold above
      beta_reduce
      rw [h z hz.1.le (by linarith), ← e, if_pos]
      have q2 : (z - a) / (t - a) < 1 := by rw [div_lt_one (by linarith)]; linarith
      nlinarith
    have e2 : Set.EqOn (fun _ => (0 : ℝ)) (above c p) (Set.uIoo t b) := by
      intro z hz
      rw [Set.uIoo_of_le htb] at hz
      have hz1 := hz.1; have hz2 := hz.2
      unfold above
      rw [h z (by linarith) hz.2.le, if_neg]
      have : (t - a) / (b - a) ≤ (z - a) / (b - a) := by apply div_le_div_of_nonneg_right _ hd.le; linarith
      nlinarith
    have i1 := (line_integrable a t u c a t).congr_uIoo e1
    have i2 := (zero_integrable t b).congr_uIoo e2
    refine ⟨i1.trans i2, ?_⟩
    rw [← integral_add_adjacent_intervals i1 i2, ← integral_congr_uIoo e1, ← integral_congr_uIoo e2, cell_integral hat, cellGT_mixed h1 h2, ht]
    simp only [intervalIntegral.integral_zero]
    field_simp
    ring
  · have huv : v - u ≠ 0 := by linarith
    have huv' : 0 < v - u := by linarith
    set t := a + (b - a) * (c - u) / (v - u) with ht
    have hat : a ≤ t := by have : 0 ≤ (b - a) * (c - u) / (v - u) := by apply div_nonneg (mul_nonneg hd.le (by linarith)) huv'.le
                           linarith
    have htb : t < b := by
      have : (b - a) * (c - u) / (v - u) < b - a := by rw [div_lt_iff₀ huv']; apply mul_lt_mul_of_pos_left <;> linarith
      linarith
    have htu : (t - a) / (b - a) * (v - u) = c - u := by rw [ht]; field_simp; ring
    have htb' : b - t ≠ 0 := by linarith
    have e1 : Set.EqOn (fun z => c + (z - t) / (b - t) * (v - c)) (above c p) (Set.uIoo t b) := by
      intro z hz
      rw [Set.uIoo_of_le htb.le] at hz
      have hz1 := hz.1; have hz2 := hz.2
      have hvc : v - c = (b - t) / (b - a) * (v - u) := by
        have : (b - t) / (b - a) = 1 - (t - a) / (b - a) := by field_simp; ring
        rw [this, sub_mul, htu]; ring
      have e : c + (z - t) / (b - t) * (v - c) = u + (z - a) / (b - a) * (v - u) := by
        have hc : c = u + (t - a) / (b - a) * (v - u) := by rw [htu]; ring
        rw [hvc]; nth_rewrite 1 [hc]; field_simp; ring
      unfold above
      beta_reduce
      rw [h z (by linarith) hz.2.le, ← e, if_pos]
      have q2 : 0 < (z - t) / (b - t) := by apply div_pos <;> linarith
      nlinarith
    have e2 : Set.EqOn (fun _ => (0 : ℝ)) (above c p) (Set.uIoo a t) := by
      intro z hz
      rw [Set.uIoo_of_le hat] at hz
      have hz1 := hz.1; have hz2 := hz.2
      unfold above
      rw [h z hz.1.le (by linarith), if_neg]
      have : (z - a) / (b - a) ≤ (t - a) / (b - a) := by apply div_le_div_of_nonneg_right _ hd.le; linarith
      nlinarith
    have i1 := (line_integrable t b c v t b).congr_uIoo e1
    have i2 := (zero_integrable a t).congr_uIoo e2
    refine ⟨i2.trans i1, ?_⟩
    rw [← integral_add_adjacent_intervals i2 i1, ← integral_congr_uIoo e1, ← integral_congr_uIoo e2, cell_integral htb, cellGT_comm, cellGT_mixed h2 h1, ht]
    simp only [intervalIntegral.integral_zero]
    field_simp
    ring
  · have e : Set.EqOn (fun _ => (0 : ℝ)) (above c p) (Set.uIoo a b) := by
      intro z hz
      rw [Set.uIoo_of_le hab.le] at hz
      have hz1 := hz.1; have hz2 := hz.2
      unfold above
      rw [h z hz.1.le hz.2.le, if_neg]
      have q1 : 0 ≤ (z - a) / (b - a) := by apply div_nonneg <;> linarith
      have q2 : (z - a) / (b - a) ≤ 1 := by rw [div_le_one hd]; linarith
      nlinarith
    refine ⟨(zero_integrable a b).congr_uIoo e, ?_⟩
    rw [← integral_congr_uIoo e, cellGT_above h1 h2]; simp

theorem interp_above {p : ℝ → ℝ} {c dx : ℝ} (hdx : 0 < dx) : ∀ {xs vs : List ℝ} {a b : ℝ}, xs.head? = some a → xs.getLast? = some b →
    xs.IsChain (fun s t => t - s = dx) → Interp xs vs p →
    IntervalIntegrable (above c p) volume a b ∧ ∫ x in a..b, above c p x = dx * qgt1d vs c
  | [], _, _, _, h, _, _, _ => by simp at h
  | [x], vs, a, b, h1, h2, _, h => by
    simp only [List.head?_cons, Option.some.injEq, List.getLast?_singleton] at h1 h2
    subst h1 h2
    refine ⟨by simp, ?_⟩
    match vs, h with
    | [u], _ => simp [qgt1d_single]
    | _ :: _ :: _, h => simp [Interp] at h
  | x :: y :: xs, [], _, _, _, _, _, h => by simp [Interp] at h
  | x :: y :: xs, [u], _, _, _, _, _, h => by simp [Interp] at h
  | x :: y :: xs, u :: v :: vs, a, b, h1, h2, hp, h => by
    simp only [List.head?_cons, Option.some.injEq] at h1
    subst h1
    obtain ⟨h3, h4⟩ := h
    have hc := List.isChain_cons_cons.mp hp
    have hlast : (y :: xs).getLast? = some b := by rw [← h2]; simp
    obtain ⟨i2, i3⟩ := interp_above hdx (xs := y :: xs) (vs := v :: vs) (a := y) rfl hlast hc.2 h4
    obtain ⟨j2, j3⟩ := cell_above (c := c) (show x < y by linarith [hc.1]) h3
    refine ⟨j2.trans i2, ?_⟩
    rw [← integral_add_adjacent_intervals j2 i2, i3, j3, hc.1, qgt1d_cons]
    ring

end Verif.HPD
