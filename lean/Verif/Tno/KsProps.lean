import Verif.Tno.ThetaLemmas
import Mathlib.Analysis.SpecialFunctions.Integrals.Basic
import Mathlib.Topology.Order.OrderClosed

/-!
# Properties C165-C167: predicted cumulative distribution, Kolmogorov-Smirnov distance and its probability
-/

set_option linter.unusedSectionVars false

noncomputable section

namespace Verif.Tno

open Set Filter Topology

/-! ## C165: the cumulative distribution that `wmodel` writes -/

/-- The grid points a, a + h, ..., a + n h with the density D exp(α m) at each. -/
def expGrid (a h D α : ℝ) (k n : ℕ) : List (ℝ × ℝ) := (List.range' k (n + 1)).map fun i => (a + h * i, D * Real.exp (α * (a + h * i)))

theorem expGrid_cons (a h D α : ℝ) (k n : ℕ) :
    expGrid a h D α k (n + 1) = (a + h * k, D * Real.exp (α * (a + h * k))) :: expGrid a h D α (k + 1) n := by
  simp only [expGrid]
  rw [List.range'_succ]
  rfl

theorem expGrid_head (a h D α : ℝ) (k n : ℕ) :
    ∃ l, expGrid a h D α k n = (a + h * k, D * Real.exp (α * (a + h * k))) :: l := by
  simp only [expGrid]
  rw [List.range'_succ]
  exact ⟨_, rfl⟩

theorem expIntegral (D α : ℝ) (hα : α ≠ 0) (x y : ℝ) : ∫ m in x..y, D * Real.exp (α * m) = D * (Real.exp (α * y) - Real.exp (α * x)) / α := by
  have hd : ∀ m ∈ uIcc x y, HasDerivAt (fun m => D * Real.exp (α * m) / α) (D * Real.exp (α * m)) m := by
    intro m _
    have h1 : HasDerivAt (fun m : ℝ => α * m) α m := by simpa using (hasDerivAt_id m).const_mul α
    exact ((h1.exp.const_mul D).div_const α).congr_deriv (by field_simp)
  rw [intervalIntegral.integral_eq_sub_of_hasDerivAt hd (by apply Continuous.intervalIntegrable; fun_prop)]
  ring

theorem cumulative_exp {a h D α : ℝ} (hh : h ≠ 0) (hα : α ≠ 0) (hD : 0 < D) (hr : 1e-8 < Real.exp (α * h)) (n : ℕ) : ∀ (k : ℕ) (c : ℝ),
    cumulative (expGrid a h D α k n) (some c) = some (c + Real.exp (α * h) * ∫ m in (a + h * k)..(a + h * (k + n : ℕ)), D * Real.exp (α * m)) := by
  induction n with
  | zero => intro k c; simp [expGrid, cumulative]
  | succ n ih =>
      intro k c
      obtain ⟨l, hl⟩ := expGrid_head a h D α (k + 1) n
      have h1 := Real.exp_pos (α * (a + h * k))
      have h2 := Real.exp_pos (α * (a + h * (k + 1 : ℕ)))
      have hstep : cumStep (some c) (a + h * k) (D * Real.exp (α * (a + h * k))) (a + h * (k + 1 : ℕ)) (D * Real.exp (α * (a + h * (k + 1 : ℕ))))
          = some (c + Real.exp (α * h) * ∫ m in (a + h * k)..(a + h * (k + 1 : ℕ)), D * Real.exp (α * m)) := by
        have hratio : D * Real.exp (α * (a + h * (k + 1 : ℕ))) / (D * Real.exp (α * (a + h * k))) = Real.exp (α * h) := by
          rw [mul_div_mul_left _ _ hD.ne', ← Real.exp_sub]
          congr 1
          push_cast
          ring
        have hal : α * h / (a + h * (k + 1 : ℕ) - (a + h * k)) = α := by
          have : a + h * (k + 1 : ℕ) - (a + h * k) = h := by push_cast; ring
          rw [this]
          field_simp
        simp only [cumStep]
        rw [if_neg (not_le.2 (mul_pos (mul_pos hD h2) (mul_pos hD h1))), hratio, if_pos hr, Real.log_exp, hal, if_neg hα, Option.map_some, expIntegral D α hα]
        congr 2
        have e1 : Real.exp (α * (a + h * (k + 1 : ℕ))) = Real.exp (α * h) * Real.exp (α * (a + h * k)) := by
          rw [← Real.exp_add]; congr 1; push_cast; ring
        have e2 : a + h * (k + 1 : ℕ) - (a + h * k) = h := by push_cast; ring
        rw [e2, e1]
        ring
      rw [expGrid_cons, hl, cumulative, hstep, ← hl, ih (k + 1)]
      congr 1
      rw [add_assoc, ← mul_add, intervalIntegral.integral_add_adjacent_intervals]
      · congr 4
        push_cast; ring
      all_goals apply Continuous.intervalIntegrable; fun_prop

/-- C165: for an exponential density on an equally spaced grid, the cumulative that `wmodel` writes is proportional to the integral of the density from the first grid point.

Missing: the factor of proportionality, `exp (α h)`, ought to be one (`C165_violated`). -/
theorem C165_cumulative_partial {a h D α : ℝ} (hh : h ≠ 0) (hα : α ≠ 0) (hD : 0 < D) (hr : 1e-8 < Real.exp (α * h)) (n : ℕ) :
    cumulative (expGrid a h D α 0 n) (some 0) = some (Real.exp (α * h) * ∫ m in a..(a + h * n), D * Real.exp (α * m)) := by
  have := cumulative_exp (a := a) hh hα hD hr n 0 0
  simpa using this

/-- C165 fails: the piecewise exponential cumulative starts each piece from the density at its end instead of its beginning, so with a rising density it is too large at every point after the first. -/
theorem C165_violated {a h D α : ℝ} (hh : 0 < h) (hα : 0 < α) (hD : 0 < D) (n : ℕ) :
    ∃ v, cumulative (expGrid a h D α 0 (n + 1)) (some 0) = some v ∧ ∫ m in a..(a + h * (n + 1 : ℕ)), D * Real.exp (α * m) < v := by
  have h1 : 1 < Real.exp (α * h) := Real.one_lt_exp_iff.2 (mul_pos hα hh)
  refine ⟨_, C165_cumulative_partial hh.ne' hα.ne' hD (by norm_num; linarith) (n + 1), ?_⟩
  have hp : 0 < ∫ m in a..(a + h * (n + 1 : ℕ)), D * Real.exp (α * m) := by
    rw [expIntegral D α hα.ne']
    have h3 : 0 < h * ((n : ℝ) + 1) := by positivity
    have h2 : Real.exp (α * a) < Real.exp (α * (a + h * (n + 1 : ℕ))) := Real.exp_lt_exp.2 (mul_lt_mul_of_pos_left (by push_cast; linarith) hα)
    exact div_pos (mul_pos hD (sub_pos.2 h2)) hα
  nlinarith

/-- C165 fails for a constant density, model 2 with a perfect survey: the slope is zero, the increment is divided by it, and the cumulative is not a number. -/
theorem C165_violated_flat {D : ℝ} (hD : 0 < D) (m0 m1 : ℝ) (l : List ℝ) (c : Option ℝ) :
    cumulative ((m0, D) :: (m1, D) :: l.map fun m => (m, D)) c = none := by
  have step : ∀ (c : Option ℝ) m0 m1, cumStep c m0 D m1 D = none := by
    intro c m0 m1
    simp only [cumStep]
    rw [if_neg (not_le.2 (mul_pos hD hD)), div_self hD.ne', if_pos (by norm_num), if_pos (by simp)]
  have tail : ∀ (l : List ℝ) m1, cumulative ((m1, D) :: l.map fun m => (m, D)) none = none := by
    intro l
    induction l with
    | nil => intro m1; rfl
    | cons m2 l ih =>
        intro m1
        rw [List.map_cons, cumulative, step]
        exact ih m2
  rw [cumulative, step]
  exact tail l m1

/-! ## C166: the Kolmogorov-Smirnov distance -/

/-- The fraction of the data that are at most `x`. -/
def ecdf (xs : List ℝ) (x : ℝ) : ℝ := (xs.countP (· ≤ x) : ℝ) / xs.length

theorem ksLoop_ge (F : ℝ → ℝ) (n : ℕ) : ∀ (xs : List ℝ) (i : ℕ) (d : ℝ),
    d ≤ ksLoop F n xs i (i / n) d ∧ ∀ k (hk : k < xs.length), |((i + k : ℕ) : ℝ) / n - F xs[k]| ≤ ksLoop F n xs i (i / n) d ∧ |((i + k + 1 : ℕ) : ℝ) / n - F xs[k]| ≤ ksLoop F n xs i (i / n) d
  | [], i, d => ⟨le_rfl, fun k hk => absurd hk (by simp)⟩
  | x :: xs, i, d => by
      have ih := ksLoop_ge F n xs (i + 1)
      set dt := max |(i : ℝ) / n - F x| |((i : ℝ) + 1) / n - F x| with hdt
      have e : ksLoop F n (x :: xs) i (i / n) d = ksLoop F n xs (i + 1) (((i + 1 : ℕ) : ℝ) / n) (if dt > d then dt else d) := by
        rw [ksLoop]; push_cast; rfl
      rw [e]
      obtain ⟨h1, h2⟩ := ih (if dt > d then dt else d)
      have hd : d ≤ (if dt > d then dt else d) ∧ dt ≤ (if dt > d then dt else d) := by
        split_ifs with h
        · exact ⟨le_of_lt h, le_rfl⟩
        · exact ⟨le_rfl, not_lt.1 h⟩
      refine ⟨hd.1.trans h1, fun k hk => ?_⟩
      cases k with
      | zero =>
          refine ⟨?_, ?_⟩
          · refine le_trans ?_ (hd.2.trans h1)
            simp only [List.getElem_cons_zero, add_zero]
            exact le_max_left _ _
          · refine le_trans ?_ (hd.2.trans h1)
            simp only [List.getElem_cons_zero, add_zero]
            push_cast
            exact le_max_right _ _
      | succ k =>
          have := h2 k (by simpa using hk)
          simp only [List.getElem_cons_succ]
          rw [show i + (k + 1) = i + 1 + k by ring]
          exact this

theorem ksLoop_le (F : ℝ → ℝ) (n : ℕ) {B : ℝ} : ∀ (xs : List ℝ) (i : ℕ) (d : ℝ), d ≤ B →
    (∀ k (hk : k < xs.length), |((i + k : ℕ) : ℝ) / n - F xs[k]| ≤ B ∧ |((i + k + 1 : ℕ) : ℝ) / n - F xs[k]| ≤ B) → ksLoop F n xs i (i / n) d ≤ B
  | [], i, d, hd, _ => hd
  | x :: xs, i, d, hd, h => by
      have h0 := h 0 (by simp)
      simp only [List.getElem_cons_zero, add_zero] at h0
      have e : ksLoop F n (x :: xs) i (i / n) d
          = ksLoop F n xs (i + 1) (((i + 1 : ℕ) : ℝ) / n) (if max |(i : ℝ) / n - F x| |((i : ℝ) + 1) / n - F x| > d then max |(i : ℝ) / n - F x| |((i : ℝ) + 1) / n - F x| else d) := by
        rw [ksLoop]; push_cast; rfl
      rw [e]
      refine ksLoop_le F n xs (i + 1) _ ?_ fun k hk => ?_
      · split_ifs
        · refine max_le h0.1 ?_
          have := h0.2
          push_cast at this
          exact this
        · exact hd
      · have := h (k + 1) (by simpa using hk)
        simp only [List.getElem_cons_succ] at this
        rw [show i + (k + 1) = i + 1 + k by ring] at this
        exact this

theorem ks_ge (F : ℝ → ℝ) (xs : List ℝ) (k : ℕ) (hk : k < xs.length) :
    |(k : ℝ) / xs.length - F xs[k]| ≤ ks F xs ∧ |((k + 1 : ℕ) : ℝ) / xs.length - F xs[k]| ≤ ks F xs := by
  have h := (ksLoop_ge F xs.length xs 0 0).2 k hk
  simpa [ks] using h

theorem ks_le (F : ℝ → ℝ) (xs : List ℝ) {B : ℝ} (hB : 0 ≤ B)
    (h : ∀ k (hk : k < xs.length), |(k : ℝ) / xs.length - F xs[k]| ≤ B ∧ |((k + 1 : ℕ) : ℝ) / xs.length - F xs[k]| ≤ B) : ks F xs ≤ B := by
  have h := ksLoop_le F xs.length xs 0 0 hB (by simpa using h)
  simpa [ks] using h

/-- In sorted data, the points up to `x` come first. -/
theorem sorted_le_iff : ∀ {xs : List ℝ}, xs.Pairwise (· ≤ ·) → ∀ (x : ℝ) (k : ℕ) (hk : k < xs.length), xs[k] ≤ x ↔ k < xs.countP (· ≤ x)
  | [], _, x, k, hk => absurd hk (by simp)
  | a :: l, hs, x, k, hk => by
      rw [List.pairwise_cons] at hs
      by_cases ha : a ≤ x
      · rw [List.countP_cons_of_pos (by simpa using ha)]
        cases k with
        | zero => simpa using ha
        | succ k =>
            rw [List.getElem_cons_succ, sorted_le_iff hs.2 x k (by simpa using hk)]
            omega
      · have h0 : l.countP (· ≤ x) = 0 := by
          rw [List.countP_eq_zero]
          intro b hb
          have := hs.1 b hb
          simp only [decide_eq_true_eq, not_le]
          linarith [not_le.1 ha]
        rw [List.countP_cons_of_neg (by simpa using ha), h0]
        refine iff_of_false ?_ (by omega)
        cases k with
        | zero => simpa using ha
        | succ k =>
            rw [List.getElem_cons_succ]
            have := hs.1 _ (List.getElem_mem (by simpa using hk : k < l.length))
            intro h; exact ha (this.trans h)

theorem between_abs {t lo hi B : ℝ} {f : ℝ} (h1 : lo ≤ t) (h2 : t ≤ hi) (hl : |lo - f| ≤ B) (hh : |hi - f| ≤ B) : |t - f| ≤ B := by
  rw [abs_le] at *
  constructor <;> linarith

theorem eventually_below (l : List ℝ) (y : ℝ) : ∀ᶠ x in 𝓝[<] y, ∀ z ∈ l, (z ≤ x ↔ z < y) := by
  induction l with
  | nil => simp
  | cons b l ihl =>
      have hb : ∀ᶠ x in 𝓝[<] y, (b ≤ x ↔ b < y) := by
        by_cases hby : b < y
        · have : ∀ᶠ x in 𝓝[<] y, b < x := nhdsWithin_le_nhds (lt_mem_nhds hby)
          filter_upwards [this] with x hx
          exact iff_of_true hx.le hby
        · filter_upwards [self_mem_nhdsWithin] with x hx
          refine iff_of_false ?_ hby
          have hx' : x < y := hx
          intro h; exact hby (lt_of_le_of_lt h hx')
      filter_upwards [hb, ihl] with x h1 h2 z hz
      rcases List.mem_cons.1 hz with rfl | hz
      · exact h1
      · exact h2 z hz

/-- C166: for sorted data and a predicted cumulative fraction that rises from 0 to 1, no observed cumulative fraction differs from the predicted one by more than the distance that `wmodel` computes. -/
theorem C166_bound {F : ℝ → ℝ} (hF : Monotone F) (h0 : ∀ x, 0 ≤ F x) (h1 : ∀ x, F x ≤ 1) {xs : List ℝ} (hs : xs.Pairwise (· ≤ ·)) (hne : xs ≠ []) (x : ℝ) :
    |ecdf xs x - F x| ≤ ks F xs := by
  have hn : 0 < xs.length := List.length_pos_of_ne_nil hne
  have hn' : (0 : ℝ) < xs.length := by exact_mod_cast hn
  set c := xs.countP (· ≤ x) with hc
  have hcn : c ≤ xs.length := List.countP_le_length
  have hlow : 0 < c → F xs[c - 1] ≤ F x ∧ |(c : ℝ) / xs.length - F xs[c - 1]| ≤ ks F xs := by
    intro hp
    refine ⟨hF ((sorted_le_iff hs x (c - 1) (by omega)).2 (by omega)), ?_⟩
    have := (ks_ge F xs (c - 1) (by omega)).2
    rwa [show c - 1 + 1 = c by omega] at this
  have hupp : ∀ hlt : c < xs.length, F x ≤ F xs[c] ∧ |(c : ℝ) / xs.length - F xs[c]| ≤ ks F xs := by
    intro hlt
    refine ⟨hF ?_, (ks_ge F xs c hlt).1⟩
    by_contra hx
    exact lt_irrefl c ((sorted_le_iff hs x c hlt).1 (not_le.1 hx).le)
  rw [ecdf, ← hc]
  rcases Nat.eq_zero_or_pos c with hz | hp
  · have hq : (c : ℝ) / xs.length = 0 := by rw [hz]; simp
    obtain ⟨b1, b2⟩ := hupp (by omega)
    rw [hq, zero_sub, abs_neg, abs_of_nonneg (h0 _)] at b2 ⊢
    linarith
  · obtain ⟨a1, a2⟩ := hlow hp
    rcases hcn.lt_or_eq with hlt | heq
    · obtain ⟨b1, b2⟩ := hupp hlt
      rw [abs_le] at a2 b2 ⊢
      constructor <;> linarith
    · have hq : (c : ℝ) / xs.length = 1 := by rw [heq, div_self hn'.ne']
      rw [hq] at a2 ⊢
      rw [abs_of_nonneg (by linarith [h1 x])]
      rw [abs_of_nonneg (by linarith [h1 xs[c - 1]])] at a2
      linarith

/-- C166: if the predicted cumulative fraction is continuous, the distance is the least such bound: ties in the data do no harm. -/
theorem C166_least {F : ℝ → ℝ} (hF : Monotone F) (hc : Continuous F) (h0 : ∀ x, 0 ≤ F x) (h1 : ∀ x, F x ≤ 1) {xs : List ℝ} (hs : xs.Pairwise (· ≤ ·)) (hne : xs ≠ []) :
    IsLUB (Set.range fun x => |ecdf xs x - F x|) (ks F xs) := by
  constructor
  · rintro _ ⟨x, rfl⟩
    exact C166_bound hF h0 h1 hs hne x
  · intro B hB
    have hB' : ∀ x, |ecdf xs x - F x| ≤ B := fun x => hB ⟨x, rfl⟩
    have hn : 0 < xs.length := List.length_pos_of_ne_nil hne
    have hn' : (0 : ℝ) < xs.length := by exact_mod_cast hn
    refine ks_le F xs ((abs_nonneg _).trans (hB' 0)) fun k hk => ?_
    set y := xs[k] with hy
    -- fraction strictly below, reached as a limit from the left
    have hev : ∀ᶠ x in 𝓝[<] y, xs.countP (· ≤ x) = xs.countP (· < y) := by
      have : ∀ᶠ x in 𝓝[<] y, ∀ z ∈ xs, (z ≤ x ↔ z < y) := eventually_below xs y
      filter_upwards [this] with x hx
      exact List.countP_congr fun z hz => by simpa using hx z hz
    have hlo : |(xs.countP (· < y) : ℝ) / xs.length - F y| ≤ B := by
      have ht : Tendsto (fun x => |(xs.countP (· < y) : ℝ) / xs.length - F x|) (𝓝[<] y) (𝓝 |(xs.countP (· < y) : ℝ) / xs.length - F y|) :=
        ((continuous_const.sub hc).abs.tendsto y).mono_left nhdsWithin_le_nhds
      refine le_of_tendsto ht ?_
      filter_upwards [hev] with x hx
      have := hB' x
      rwa [ecdf, hx] at this
    have hhi : |(xs.countP (· ≤ y) : ℝ) / xs.length - F y| ≤ B := hB' y
    have hk1 : k < xs.countP (· ≤ y) := (sorted_le_iff hs y k hk).1 le_rfl
    have hk0 : xs.countP (· < y) ≤ k := by
      by_contra hcon
      push Not at hcon
      -- the points below y come first and number more than k, so the k-th one would be below y
      have hlt : ∃ x, x < y ∧ xs.countP (· ≤ x) = xs.countP (· < y) := by
        obtain ⟨x, hx, hxy⟩ := (hev.and self_mem_nhdsWithin).exists
        exact ⟨x, hxy, hx⟩
      obtain ⟨x, hxy, hx⟩ := hlt
      have := (sorted_le_iff hs x k hk).2 (by rw [hx]; exact hcon)
      exact absurd (this.trans_lt hxy) (lt_irrefl _)
    have q1 : (xs.countP (· < y) : ℝ) / xs.length ≤ (k : ℝ) / xs.length := by
      gcongr
    have q2 : (k : ℝ) / xs.length ≤ ((k + 1 : ℕ) : ℝ) / xs.length := by
      gcongr; omega
    have q3 : ((k + 1 : ℕ) : ℝ) / xs.length ≤ (xs.countP (· ≤ y) : ℝ) / xs.length := by
      gcongr; omega
    exact ⟨between_abs q1 (q2.trans q3) hlo hhi, between_abs (q1.trans q2) q3 hlo hhi⟩

/-! ## C167: the probability of the distance -/

/-- Partial sums of the series. -/
def ksum (lam : ℝ) (n : ℕ) : ℝ := ∑ i ∈ Finset.range n, (-1) ^ i * kst lam i

theorem probksLoop_spec {lam : ℝ} : ∀ (k n : ℕ) (bf : ℝ), (n = 0 → bf = 0) → (∀ m, n = m + 1 → bf = kst lam m) →
    (∀ s, probksLoop lam k (n + 1) (2 * (-1) ^ n) (ksum lam n) bf = some s →
      ∃ m, s = ksum lam (m + 1) ∧ ((∃ p, m = p + 1 ∧ kst lam m ≤ 0.001 * kst lam p) ∨ kst lam m ≤ 1e-8 * ksum lam (m + 1))) ∧
    (probksLoop lam k (n + 1) (2 * (-1) ^ n) (ksum lam n) bf = none → ∀ m, n ≤ m → m < n + k → ∀ p, m = p + 1 → 0.001 * kst lam p < kst lam m)
  | 0, n, bf, _, _ => ⟨fun s h => by simp [probksLoop] at h, fun _ m h1 h2 => by omega⟩
  | k + 1, n, bf, hz, hs => by
      have hterm : 2 * (-1) ^ n * Real.exp (-2 * lam ^ 2 * ((n + 1 : ℕ) : ℝ) ^ 2) = (-1) ^ n * kst lam n := by
        rw [kst]; push_cast; ring
      have habs : |(-1) ^ n * kst lam n| = kst lam n := by
        rw [abs_mul, abs_pow, abs_neg, abs_one, one_pow, one_mul, abs_of_pos (kst_pos lam n)]
      have hsum : ksum lam n + (-1) ^ n * kst lam n = ksum lam (n + 1) := by
        rw [ksum, ksum, Finset.sum_range_succ]
      have e : probksLoop lam (k + 1) (n + 1) (2 * (-1) ^ n) (ksum lam n) bf
          = if kst lam n ≤ 0.001 * bf ∨ kst lam n ≤ 1e-8 * ksum lam (n + 1) then some (ksum lam (n + 1))
            else probksLoop lam k (n + 1 + 1) (2 * (-1) ^ (n + 1)) (ksum lam (n + 1)) (kst lam n) := by
        rw [probksLoop]
        simp only [hterm, habs, hsum]
        rw [show -(2 * (-1 : ℝ) ^ n) = 2 * (-1) ^ (n + 1) by ring]
      rw [e]
      have ih := probksLoop_spec (lam := lam) k (n + 1) (kst lam n) (by omega) (fun m hm => by rw [show n = m by omega])
      constructor
      · intro s h
        split_ifs at h with hc
        · refine ⟨n, (Option.some.inj h).symm, ?_⟩
          rcases hc with hc | hc
          · left
            cases n with
            | zero =>
                rw [hz rfl, mul_zero] at hc
                exact absurd hc (not_le.2 (kst_pos lam 0))
            | succ m => exact ⟨m, rfl, by rw [hs m rfl] at hc; exact hc⟩
          · exact Or.inr hc
        · exact ih.1 s h
      · intro h m h1 h2 p hp
        split_ifs at h with hc
        rcases h1.lt_or_eq with hlt | heq
        · exact ih.2 h m hlt (by omega) p hp
        · push Not at hc
          have := hc.1
          rw [hs p (by omega), heq] at this
          exact this

theorem kst_logconvex (lam : ℝ) (p : ℕ) : kst lam (p + 2) * kst lam p ≤ kst lam (p + 1) ^ 2 := by
  simp only [kst]
  rw [show 2 * Real.exp (-2 * lam ^ 2 * (((p + 2 : ℕ) : ℝ) + 1) ^ 2) * (2 * Real.exp (-2 * lam ^ 2 * ((p : ℝ) + 1) ^ 2))
      = 4 * (Real.exp (-2 * lam ^ 2 * (((p + 2 : ℕ) : ℝ) + 1) ^ 2) * Real.exp (-2 * lam ^ 2 * ((p : ℝ) + 1) ^ 2)) by ring,
    mul_pow, ← Real.exp_nat_mul, ← Real.exp_add]
  norm_num
  nlinarith [sq_nonneg lam]

/-- C167: the probability that `wmodel` reports for a distance is within two millionths of the asymptotic one, whether the loop converges or gives up after a hundred terms. -/
theorem C167_probability {lam : ℝ} (h : 0 < lam) : |probks lam - ksTail lam| ≤ 2 / 1000000 := by
  have spec := probksLoop_spec (lam := lam) 100 0 0 (fun _ => rfl) (fun m hm => by omega)
  have e0 : probksLoop lam 100 1 2 0 0 = probksLoop lam 100 (0 + 1) (2 * (-1) ^ 0) (ksum lam 0) 0 := by simp [ksum]
  have two : ∀ i, kst lam i ≤ 2 := by
    intro i
    have : Real.exp (-2 * lam ^ 2 * ((i : ℝ) + 1) ^ 2) ≤ 1 := by
      rw [Real.exp_le_one_iff]
      nlinarith [mul_nonneg (sq_nonneg lam) (sq_nonneg ((i : ℝ) + 1))]
    rw [kst]; linarith
  rw [probks, e0]
  cases hl : probksLoop lam 100 (0 + 1) (2 * (-1) ^ 0) (ksum lam 0) 0 with
  | some s =>
      obtain ⟨m, rfl, hc⟩ := spec.1 s hl
      have herr := kst_error h (m + 1)
      change |ksum lam (m + 1) - ksTail lam| ≤ _ at herr
      refine herr.trans ?_
      rcases hc with ⟨p, rfl, hp⟩ | hm
      · have h3 := kst_logconvex lam p
        have h4 := kst_pos lam p
        have h5 := kst_pos lam (p + 1)
        have h7 := two p
        norm_num at hp
        have h6 : kst lam (p + 2) * kst lam p ≤ (1 / 1000 * kst lam (p + 1)) * kst lam p := by nlinarith
        have h8 := le_of_mul_le_mul_right h6 h4
        change kst lam (p + 2) ≤ _
        linarith
      · have h9 := kst_anti lam (Nat.le_succ m)
        have h10 := two (m + 1)
        have h11 := ksTail_lt_one h
        rw [abs_le] at herr
        norm_num at hm
        change kst lam (m + 1) ≤ _ at h9
        linarith [herr.1, herr.2]
  | none =>
      have h98 := spec.2 hl 99 (by omega) (by omega) 98 rfl
      have hs : lam ^ 2 ≤ 7 / 398 := by
        by_contra hcon
        push Not at hcon
        simp only [kst] at h98
        have e : Real.exp (-2 * lam ^ 2 * (((99 : ℕ) : ℝ) + 1) ^ 2) = Real.exp (-(398 * lam ^ 2)) * Real.exp (-2 * lam ^ 2 * (((98 : ℕ) : ℝ) + 1) ^ 2) := by
          rw [← Real.exp_add]; congr 1; push_cast; ring
        rw [e] at h98
        have hp := Real.exp_pos (-2 * lam ^ 2 * (((98 : ℕ) : ℝ) + 1) ^ 2)
        have h1 : (0.001 : ℝ) < Real.exp (-(398 * lam ^ 2)) := by
          by_contra hle
          push Not at hle
          have := mul_le_mul_of_nonneg_right hle hp.le
          linarith
        have h2 : Real.exp (-(398 * lam ^ 2)) ≤ Real.exp (-7) := Real.exp_le_exp.2 (by linarith)
        have h3 : Real.exp (-7) = Real.exp (-1) ^ 7 := by rw [← Real.exp_nat_mul]; norm_num
        have h4 : Real.exp (-1) ^ 7 ≤ 0.37 ^ 7 := pow_le_pow_left₀ (Real.exp_pos _).le (by have := Real.exp_neg_one_lt_d9; norm_num at this ⊢; linarith) 7
        rw [h3] at h2
        norm_num at h1 h4
        linarith
      have h1 := ksTail_small h hs
      have h2 := ksTail_lt_one h
      change |1 - ksTail lam| ≤ _
      rw [abs_of_pos (by linarith)]
      linarith

/-- C167: the asymptotic probability is a probability, and the report for a vanishing distance is one. -/
theorem C167_range {lam : ℝ} (h : 0 < lam) : 0 < ksTail lam ∧ ksTail lam < 1 := ⟨ksTail_pos h, ksTail_lt_one h⟩

/-- C167: the report for a vanishing distance is one. -/
theorem C167_zero : probks 0 = 1 := by
  have key : ∀ k n : ℕ, ∀ bf : ℝ, bf = 0 ∨ bf = 2 → probksLoop 0 k (n + 1) (2 * (-1) ^ n) (1 - (-1) ^ n) bf = none := by
    intro k
    induction k with
    | zero => intro n bf _; rfl
    | succ k ih =>
        intro n bf hbf
        rw [probksLoop]
        simp only [ne_eq, OfNat.ofNat_ne_zero, not_false_eq_true, zero_pow, mul_zero, zero_mul, Real.exp_zero, mul_one]
        have habs : |2 * (-1 : ℝ) ^ n| = 2 := by rw [abs_mul, abs_pow, abs_neg, abs_one, one_pow]; norm_num
        rw [habs, if_neg]
        · have := ih (n + 1) 2 (Or.inr rfl)
          rw [show -(2 * (-1 : ℝ) ^ n) = 2 * (-1) ^ (n + 1) by ring, show 1 - (-1 : ℝ) ^ n + 2 * (-1) ^ n = 1 - (-1) ^ (n + 1) by ring]
          exact this
        · have hp : (-1 : ℝ) ^ n ≤ 1 := by
            rcases Nat.even_or_odd n with he | he
            · rw [he.neg_one_pow]
            · rw [he.neg_one_pow]; norm_num
          push Not
          constructor
          · rcases hbf with rfl | rfl <;> norm_num
          · norm_num
            linarith
  have := key 100 0 0 (Or.inl rfl)
  simp only [pow_zero, mul_one, sub_self, zero_add] at this
  rw [probks, this]

/-- A predicted fraction and data that meet the conditions of `C166_least`, with a tie. -/
example : ([1, 2, 2, 3] : List ℝ).Pairwise (· ≤ ·) ∧ Monotone (fun x : ℝ => max 0 (min x 4) / 4) ∧ Continuous (fun x : ℝ => max 0 (min x 4) / 4)
    ∧ (∀ x : ℝ, 0 ≤ max 0 (min x 4) / 4) ∧ ∀ x : ℝ, max 0 (min x 4) / 4 ≤ 1 := by
  refine ⟨by simp; norm_num, fun a b h => ?_, by fun_prop, fun x => ?_, fun x => ?_⟩
  · exact div_le_div_of_nonneg_right (max_le_max_left _ (min_le_min_right _ h)) (by norm_num)
  · positivity
  · rw [div_le_one (by norm_num)]
    exact max_le (by norm_num) (min_le_right _ _)

end Verif.Tno
