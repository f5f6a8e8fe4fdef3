import Verif.Utils.NrMin
import Mathlib.Topology.Order.Compact
import Mathlib.Topology.Order.LocalExtr
import Mathlib.Topology.Instances.Real.Lemmas
import Mathlib.Tactic.Linarith
import Mathlib.Tactic.FieldSimp
import Mathlib.Tactic.Module
import Mathlib.Data.Rat.Cast.Order

/-!
# Minimisers: property C48
-/

set_option linter.unusedSectionVars false
set_option linter.unusedSimpArgs false

namespace Verif.NrMin

variable {K : Type*} [Field K] [LinearOrder K] [IsStrictOrderedRing K]

/-! ### MinBracket -/

/-- Invariant of the bracketing loop: values belong to points, the middle value is not above the first, and the three points are in order, in one of the directions. -/
structure BkInv (f : K → K) (m : K) (b : Brak K) : Prop where
  h1 : b.f1 = f b.x1
  hm : b.fm = f b.xm
  h2 : b.f2 = f b.x2
  le : b.fm ≤ b.f1
  le0 : b.fm ≤ m
  ord : (b.x1 < b.xm ∧ b.xm < b.x2) ∨ (b.x2 < b.xm ∧ b.xm < b.x1)

theorem gold_pos : (0 : K) < gold := by unfold gold; positivity
theorem tiny_pos : (0 : K) < tiny := by unfold tiny; positivity

theorem brakStep_inv (f : K → K) (m : K) {b : Brak K} (h : BkInv f m b) :
    BkInv f m (brakStep f b).1 ∧ ((brakStep f b).2 = true → (brakStep f b).1.fm < (brakStep f b).1.f2) := by
  have hg := gold_pos (K := K)
  have shiftInv : ∀ (b : Brak K) (u : K), BkInv f m b → ¬ b.fm < b.f2 → ((b.xm < b.x2 ∧ b.x2 < u) ∨ (u < b.x2 ∧ b.x2 < b.xm)) →
      BkInv f m ⟨b.xm, b.fm, b.x2, b.f2, u, f u⟩ := by
    intro b u h hn ho
    exact ⟨h.hm, h.h2, rfl, not_lt.mp hn, (not_lt.mp hn).trans h.le0, by rcases ho with ho | ho; exacts [Or.inl ho, Or.inr ho]⟩
  have dflt : (b.xm < b.x2 ∧ b.x2 < b.x2 - gold * (b.xm - b.x2)) ∨ (b.x2 - gold * (b.xm - b.x2) < b.x2 ∧ b.x2 < b.xm) := by
    rcases h.ord with ⟨_, o⟩ | ⟨o, _⟩
    · left; exact ⟨o, by nlinarith⟩
    · right; exact ⟨by nlinarith, o⟩
  unfold brakStep
  by_cases c0 : b.fm < b.f2
  · rw [if_pos c0]; exact ⟨h, fun _ => c0⟩
  rw [if_neg c0]
  dsimp only
  generalize parab b = u
  split_ifs with c1 c2 c3 c4 c5 c6
  · -- between, lower
    have hu : (b.xm < u ∧ u < b.x2) ∨ (b.x2 < u ∧ u < b.xm) := by
      rcases mul_pos_iff.mp c1 with ⟨q1, q2⟩ | ⟨q1, q2⟩
      · right; constructor <;> linarith
      · left; constructor <;> linarith
    refine ⟨⟨h.hm, rfl, h.h2, ?_, ?_, ?_⟩, fun _ => c2⟩
    · have := not_lt.mp c0; dsimp only; linarith
    · have := not_lt.mp c0; have := h.le0; dsimp only; linarith
    · rcases hu with hu | hu
      · exact Or.inl hu
      · exact Or.inr hu
  · -- between, higher
    have hu : (b.xm < u ∧ u < b.x2) ∨ (b.x2 < u ∧ u < b.xm) := by
      rcases mul_pos_iff.mp c1 with ⟨q1, q2⟩ | ⟨q1, q2⟩
      · right; constructor <;> linarith
      · left; constructor <;> linarith
    refine ⟨⟨h.h1, h.hm, rfl, h.le, h.le0, ?_⟩, fun _ => c3⟩
    dsimp only
    rcases h.ord with ⟨o1, o2⟩ | ⟨o1, o2⟩ <;> rcases hu with ⟨u1, u2⟩ | ⟨u1, u2⟩
    · exact Or.inl ⟨o1, u1⟩
    · linarith
    · linarith
    · exact Or.inr ⟨u2, o2⟩
  · exact ⟨shiftInv b _ h c0 dflt, by simp⟩
  · -- beyond the end, lower
    have hu : (b.xm < b.x2 ∧ b.x2 < u) ∨ (u < b.x2 ∧ b.x2 < b.xm) := by
      rcases h.ord with ⟨_, o⟩ | ⟨o, _⟩
      · left
        refine ⟨o, ?_⟩
        rcases mul_pos_iff.mp c4 with ⟨q1, q2⟩ | ⟨q1, q2⟩
        · unfold maxMag at q2; linarith
        · linarith
      · right
        refine ⟨?_, o⟩
        rcases mul_pos_iff.mp c4 with ⟨q1, q2⟩ | ⟨q1, q2⟩
        · linarith
        · unfold maxMag at q2; linarith
    refine ⟨⟨h.h2, rfl, rfl, c5.le, ?_, ?_⟩, by simp⟩
    · have := not_lt.mp c0; have := h.le0; dsimp only; linarith
    · dsimp only
      rcases hu with ⟨u1, u2⟩ | ⟨u1, u2⟩
      · left; exact ⟨u2, by nlinarith⟩
      · right; exact ⟨by nlinarith, u1⟩
  · -- beyond the end, not lower
    have hu : (b.xm < b.x2 ∧ b.x2 < u) ∨ (u < b.x2 ∧ b.x2 < b.xm) := by
      rcases h.ord with ⟨_, o⟩ | ⟨o, _⟩
      · left
        refine ⟨o, ?_⟩
        rcases mul_pos_iff.mp c4 with ⟨q1, q2⟩ | ⟨q1, q2⟩
        · unfold maxMag at q2; linarith
        · linarith
      · right
        refine ⟨?_, o⟩
        rcases mul_pos_iff.mp c4 with ⟨q1, q2⟩ | ⟨q1, q2⟩
        · linarith
        · unfold maxMag at q2; linarith
    exact ⟨shiftInv b _ h c0 hu, by simp⟩
  · have hu : (b.xm < b.x2 ∧ b.x2 < b.xm - maxMag * (b.xm - b.x2)) ∨ (b.xm - maxMag * (b.xm - b.x2) < b.x2 ∧ b.x2 < b.xm) := by
      unfold maxMag
      rcases h.ord with ⟨_, o⟩ | ⟨o, _⟩
      · left; exact ⟨o, by linarith⟩
      · right; exact ⟨by linarith, o⟩
    exact ⟨shiftInv b _ h c0 hu, by simp⟩
  · exact ⟨shiftInv b _ h c0 dflt, by simp⟩

theorem brakLoop_inv (f : K → K) (m : K) : ∀ (n : ℕ) (b b' : Brak K), BkInv f m b → brakLoop f n b = some b' → BkInv f m b' ∧ b'.fm < b'.f2
  | 0, _, _, _, h => by simp [brakLoop] at h
  | n + 1, b, b', hb, h => by
    obtain ⟨i1, i2⟩ := brakStep_inv f m hb
    unfold brakLoop at h
    rcases hs : brakStep f b with ⟨b1, _ | _⟩
    · rw [hs] at h i1
      exact brakLoop_inv f m n b1 b' i1 h
    · rw [hs] at h i1 i2
      simp only [Option.some.injEq] at h
      rw [← h]
      exact ⟨i1, i2 rfl⟩

theorem brakStart_inv (f : K → K) {x1 x2 : K} (hx : x1 ≠ x2) : BkInv f (min (f x1) (f x2)) (brakStart f x1 x2) := by
  have hg := gold_pos (K := K)
  unfold brakStart
  split_ifs with h
  · refine ⟨rfl, rfl, rfl, h.le, by simp [h.le], ?_⟩
    dsimp only
    rcases lt_or_gt_of_ne hx with q | q
    · right; exact ⟨by nlinarith, q⟩
    · left; exact ⟨q, by nlinarith⟩
  · refine ⟨rfl, rfl, rfl, not_lt.mp h, by simp [not_lt.mp h], ?_⟩
    dsimp only
    rcases lt_or_gt_of_ne hx with q | q
    · left; exact ⟨q, by nlinarith⟩
    · right; exact ⟨by nlinarith, q⟩

/-- **C48.** The bracket found from two different points has increasing abscissas and the function values there; the middle value is not above either end's, below one
of them, and not above the values at the two starting points. -/
theorem C48_bracket (fuel : ℕ) (f : K → K) (x1 x2 : K) (hx : x1 ≠ x2) (b : Brak K) (h : minBracket fuel f x1 x2 = some b) :
    b.x1 < b.xm ∧ b.xm < b.x2 ∧ b.f1 = f b.x1 ∧ b.fm = f b.xm ∧ b.f2 = f b.x2 ∧ b.fm ≤ b.f1 ∧ b.fm ≤ b.f2 ∧ (b.fm < b.f1 ∨ b.fm < b.f2) ∧
      b.fm ≤ f x1 ∧ b.fm ≤ f x2 := by
  unfold minBracket at h
  cases hl : brakLoop f fuel (brakStart f x1 x2) with
  | none => rw [hl] at h; simp at h
  | some b0 =>
    rw [hl] at h
    dsimp only at h
    obtain ⟨i, hlt⟩ := brakLoop_inv f _ fuel _ _ (brakStart_inv f hx) hl
    have hle := le_min_iff.mp i.le0
    simp only [Option.some.injEq] at h
    by_cases hc : b0.x2 < b0.x1
    · rw [if_pos hc] at h
      subst h
      rcases i.ord with ⟨o1, o2⟩ | ⟨o1, o2⟩
      · linarith
      · exact ⟨o1, o2, i.h2, i.hm, i.h1, hlt.le, i.le, Or.inl hlt, hle⟩
    · rw [if_neg hc] at h
      subst h
      rcases i.ord with ⟨o1, o2⟩ | ⟨o1, o2⟩
      · exact ⟨o1, o2, i.h1, i.hm, i.h2, i.le, hlt.le, Or.inr hlt, hle⟩
      · linarith

/-- The bracketing never ends for a constant function, nor from two equal points. -/
theorem C48_bracket_never (fuel : ℕ) (f : K → K) (x1 x2 : K) (h : (∃ c, ∀ x, f x = c) ∨ x1 = x2) : minBracket fuel f x1 x2 = none := by
  have key1 : ∀ c, (∀ x, f x = c) → ∀ (n : ℕ) (b : Brak K), b.fm = c → b.f2 = c → brakLoop f n b = none := by
    intro c hc n
    induction n with
    | zero => intro b _ _; rfl
    | succ n ih =>
      intro b hm h2
      have hs : ∃ b', brakStep f b = (b', false) ∧ b'.fm = c ∧ b'.f2 = c := by
        unfold brakStep
        rw [if_neg (by rw [hm, h2]; exact lt_irrefl _)]
        simp only [hc, hm, h2, gt_iff_lt, lt_irrefl, if_false]
        generalize parab b = u
        split_ifs <;> exact ⟨_, rfl, rfl, rfl⟩
      obtain ⟨b', q1, q2, q3⟩ := hs
      unfold brakLoop
      rw [q1]
      exact ih b' q2 q3
  have key2 : ∀ (x : K) (n : ℕ) (b : Brak K), b = ⟨x, f x, x, f x, x, f x⟩ → brakLoop f n b = none := by
    intro x n
    induction n with
    | zero => intro b _; rfl
    | succ n ih =>
      intro b hb
      have hs : brakStep f b = (b, false) := by
        have hp : parab b = x := by simp [parab, hb]
        unfold brakStep
        rw [hp, if_neg (by rw [hb]; exact lt_irrefl _), hb]
        simp [maxMag, gold]
      unfold brakLoop
      rw [hs]
      exact ih b hb
  have : brakLoop f fuel (brakStart f x1 x2) = none := by
    rcases h with ⟨c, hc⟩ | rfl
    · apply key1 c hc
      · unfold brakStart; simp [hc]
      · unfold brakStart; simp [hc]
    · apply key2 x1
      unfold brakStart
      simp
  unfold minBracket
  rw [this]

/-! ### brent -/

/-- Invariant of Brent's loop, for the interval it began with and the points evaluated so far. -/
structure BrInv (f : K → K) (x1 x2 : K) (s : BrSt K) (calls : List K) : Prop where
  fx : s.fx = f s.x
  ax : s.a < s.x
  xb : s.x < s.b
  fa : s.fx ≤ f s.a
  fb : s.fx ≤ f s.b
  lo : x1 ≤ s.a
  hi : s.b ≤ x2
  d : s.d = none → s.e = 0
  mem : s.x ∈ calls
  best : ∀ u ∈ calls, s.fx ≤ f u
  inside : ∀ u ∈ calls, x1 < u ∧ u < x2

theorem brent_point {s : BrSt K} {xm tol1 e d : K} (h1 : s.a < s.x) (h2 : s.x < s.b) (ht : 0 < tol1) (hxm : xm = 1 / 2 * (s.a + s.b))
    (hc : ¬ |s.x - xm| ≤ 2 * tol1 - 1 / 2 * (s.b - s.a)) (hs : brentStep s xm tol1 (2 * tol1) = some (e, d)) :
    s.a < brentPoint s.x d tol1 ∧ brentPoint s.x d tol1 < s.b ∧ brentPoint s.x d tol1 ≠ s.x := by
  have hc' := not_le.mp hc
  have hcg : (0 : K) < cgold ∧ (cgold : K) < 1 := by
    unfold cgold
    exact ⟨by positivity, by rw [div_lt_one (by positivity)]; norm_num⟩
  -- the larger part of the interval is wide enough
  have wideR : s.x ≤ xm → 2 * tol1 < s.b - s.x := by
    intro hx
    rw [abs_of_nonpos (by linarith)] at hc'
    rw [hxm] at hc' ; linarith
  have wideL : xm ≤ s.x → 2 * tol1 < s.x - s.a := by
    intro hx
    rw [abs_of_nonneg (by linarith)] at hc'
    rw [hxm] at hc' ; linarith
  have gold : ∀ e d, goldenStep s xm = (e, d) → s.a < brentPoint s.x d tol1 ∧ brentPoint s.x d tol1 < s.b ∧ brentPoint s.x d tol1 ≠ s.x := by
    intro e d hg
    unfold goldenStep at hg
    simp only [Prod.mk.injEq] at hg
    obtain ⟨he, hd⟩ := hg
    by_cases hx : s.x ≥ xm
    · rw [if_pos hx] at he hd
      have w := wideL hx
      have hd0 : d < 0 := by rw [← hd]; exact mul_neg_of_pos_of_neg hcg.1 (by linarith)
      have hd1 : s.a - s.x < d := by rw [← hd]; nlinarith [hcg.2]
      unfold brentPoint
      split_ifs with q1
      · exact ⟨by linarith, by linarith, by intro h; linarith⟩
      · exact ⟨by linarith, by linarith, by intro h; linarith⟩
    · rw [if_neg hx] at he hd
      have w := wideR (not_le.mp hx).le
      have hd0 : 0 < d := by rw [← hd]; exact mul_pos hcg.1 (by linarith)
      have hd1 : d < s.b - s.x := by rw [← hd]; nlinarith [hcg.2]
      unfold brentPoint
      split_ifs with q1 q2
      · exact ⟨by linarith, by linarith, by intro h; linarith⟩
      · linarith
      · exact ⟨by linarith, by linarith, by intro h; linarith⟩
  have pos : ∀ q : K, 0 ≤ q → (q ≠ 0 → 0 < q) := fun q h1 h2 => lt_of_le_of_ne h1 (Ne.symm h2)
  unfold brentStep at hs
  by_cases hE : |s.e| > tol1
  · rw [if_pos hE] at hs
    dsimp only at hs
    cases hd : s.d with
    | none => rw [hd] at hs; simp at hs
    | some e0 =>
      rw [hd] at hs
      dsimp only at hs
      generalize hq : 2 * ((s.x - s.v) * (s.fx - s.fw) - (s.x - s.w) * (s.fx - s.fv)) = q0 at hs
      generalize (if q0 > 0 then -((s.x - s.v) * ((s.x - s.v) * (s.fx - s.fw)) - (s.x - s.w) * ((s.x - s.w) * (s.fx - s.fv)))
        else (s.x - s.v) * ((s.x - s.v) * (s.fx - s.fw)) - (s.x - s.w) * ((s.x - s.w) * (s.fx - s.fv))) = p at hs
      by_cases hc1 : |p| ≥ |1 / 2 * |q0| * s.e| ∨ p ≤ |q0| * (s.a - s.x) ∨ p ≥ |q0| * (s.b - s.x)
      · rw [if_pos hc1] at hs
        simp only [Option.some.injEq] at hs
        exact gold e d hs
      · rw [if_neg hc1] at hs
        push Not at hc1
        obtain ⟨n1, n2, n3⟩ := hc1
        have hqpos : 0 < |q0| := by
          refine pos _ (abs_nonneg _) fun h0 => ?_
          rw [h0] at n1
          simp at n1
          exact absurd n1 (not_lt.mpr (abs_nonneg p))
        have hdl : s.a - s.x < p / |q0| := by rw [lt_div_iff₀ hqpos]; linarith
        have hdr : p / |q0| < s.b - s.x := by rw [div_lt_iff₀ hqpos]; linarith
        generalize p / |q0| = dd at hs hdl hdr
        by_cases hc2 : s.x + dd - s.a < 2 * tol1 ∨ s.b - (s.x + dd) < 2 * tol1
        · rw [if_pos hc2] at hs
          simp only [Option.some.injEq, Prod.mk.injEq] at hs
          obtain ⟨-, hs⟩ := hs
          by_cases hx : xm - s.x < 0
          · rw [if_pos hx] at hs
            have w := wideL (by linarith)
            rw [← hs]
            unfold brentPoint
            rw [if_pos (by rw [abs_neg, abs_of_pos ht])]
            exact ⟨by linarith, by linarith, by intro h; linarith⟩
          · rw [if_neg hx] at hs
            have w := wideR (by linarith)
            rw [← hs]
            unfold brentPoint
            rw [if_pos (by rw [abs_of_pos ht])]
            exact ⟨by linarith, by linarith, by intro h; linarith⟩
        · rw [if_neg hc2] at hs
          push Not at hc2
          simp only [Option.some.injEq, Prod.mk.injEq] at hs
          obtain ⟨-, hs⟩ := hs
          rw [← hs]
          unfold brentPoint
          split_ifs with q1 q2
          · refine ⟨by linarith, by linarith, fun h => ?_⟩
            have : dd = 0 := by linarith
            rw [this, abs_zero] at q1
            linarith
          · exact ⟨by linarith [hc2.1], by linarith, by intro h; linarith⟩
          · exact ⟨by linarith, by linarith [hc2.2], by intro h; linarith⟩
  · rw [if_neg hE] at hs
    simp only [Option.some.injEq] at hs
    exact gold e d hs

theorem brent_update {f : K → K} {x1 x2 : K} {s : BrSt K} {calls : List K} (h : BrInv f x1 x2 s calls) {u : K} (e d : K) (hu1 : s.a < u) (hu2 : u < s.b) (hu3 : u ≠ s.x) :
    BrInv f x1 x2 (brentUpdate s u (f u) e d) (u :: calls) := by
  have hin : ∀ v ∈ u :: calls, x1 < v ∧ v < x2 := by
    intro v hv
    rcases List.mem_cons.mp hv with rfl | hv
    · exact ⟨lt_of_le_of_lt h.lo hu1, lt_of_lt_of_le hu2 h.hi⟩
    · exact h.inside v hv
  have hxc : s.x ∈ u :: calls := List.mem_cons_of_mem _ h.mem
  unfold brentUpdate
  by_cases c1 : f u ≤ s.fx
  · rw [if_pos c1]
    have hb : ∀ v ∈ u :: calls, f u ≤ f v := by
      intro v hv
      rcases List.mem_cons.mp hv with rfl | hv
      · exact le_refl _
      · exact c1.trans (h.best v hv)
    have hfx := h.fx
    by_cases c2 : u ≥ s.x
    · simp only [if_pos c2]
      have : s.x < u := lt_of_le_of_ne c2 (Ne.symm hu3)
      exact ⟨rfl, this, hu2, by dsimp only; rw [← hfx]; exact c1, c1.trans h.fb, h.lo.trans h.ax.le, h.hi, by simp, by simp, hb, hin⟩
    · simp only [if_neg c2]
      exact ⟨rfl, hu1, not_le.mp c2, c1.trans h.fa, by dsimp only; rw [← hfx]; exact c1, h.lo, h.xb.le.trans h.hi, by simp, by simp, hb, hin⟩
  · rw [if_neg c1]
    have c1' := (not_le.mp c1).le
    have hb : ∀ v ∈ u :: calls, s.fx ≤ f v := by
      intro v hv
      rcases List.mem_cons.mp hv with rfl | hv
      · exact c1'
      · exact h.best v hv
    by_cases c2 : u < s.x
    · simp only [if_pos c2]
      split_ifs <;> exact ⟨h.fx, c2, h.xb, c1', h.fb, h.lo.trans hu1.le, h.hi, by simp, hxc, hb, hin⟩
    · simp only [if_neg c2]
      have : s.x < u := lt_of_le_of_ne (not_lt.mp c2) (Ne.symm hu3)
      split_ifs <;> exact ⟨h.fx, h.ax, this, h.fa, c1', h.lo, hu2.le.trans h.hi, by simp, hxc, hb, hin⟩

theorem brentLoop_inv (f : K → K) {tol x1 x2 : K} (ht : 0 ≤ tol) : ∀ (n : ℕ) (s : BrSt K) (calls : List K), BrInv f x1 x2 s calls →
    (∀ x fx, (brentLoop f tol n s calls).1 = .ok (x, fx) → ∃ s', s'.x = x ∧ s'.fx = fx ∧ BrInv f x1 x2 s' (brentLoop f tol n s calls).2 ∧
        |s'.x - 1 / 2 * (s'.a + s'.b)| ≤ 2 * (tol * |s'.x| + eps0) - 1 / 2 * (s'.b - s'.a)) ∧
      (∀ e, (brentLoop f tol n s calls).1 = .error e → e = .iter) ∧ (brentLoop f tol n s calls).2.length ≤ n + calls.length
  | 0, s, calls, h => ⟨by simp [brentLoop], by simp [brentLoop], by simp [brentLoop]⟩
  | n + 1, s, calls, h => by
    unfold brentLoop
    dsimp only
    by_cases hc : |s.x - 1 / 2 * (s.a + s.b)| ≤ 2 * (tol * |s.x| + eps0) - 1 / 2 * (s.b - s.a)
    · rw [if_pos hc]
      refine ⟨fun x fx hx => ?_, by simp, by dsimp only; omega⟩
      simp only [Except.ok.injEq, Prod.mk.injEq] at hx
      exact ⟨s, hx.1, hx.2, h, hc⟩
    · rw [if_neg hc]
      have heps : (0 : K) < eps0 := by unfold eps0; positivity
      have ht1 : 0 < tol * |s.x| + eps0 := by have := mul_nonneg ht (abs_nonneg s.x); linarith
      cases hs : brentStep s (1 / 2 * (s.a + s.b)) (tol * |s.x| + eps0) (2 * (tol * |s.x| + eps0)) with
      | none =>
        exfalso
        unfold brentStep at hs
        cases hd : s.d with
        | none =>
          rw [h.d hd, abs_zero, if_neg (by linarith)] at hs
          simp at hs
        | some d0 =>
          rw [hd] at hs
          dsimp only at hs
          split_ifs at hs
      | some ed =>
        obtain ⟨e, d⟩ := ed
        dsimp only
        obtain ⟨p1, p2, p3⟩ := brent_point h.ax h.xb ht1 rfl hc hs
        obtain ⟨i1, i2, i3⟩ := brentLoop_inv f ht n _ _ (brent_update h e d p1 p2 p3)
        refine ⟨i1, i2, ?_⟩
        simp only [List.length_cons] at i3
        omega

/-- A proper bracket: increasing abscissas, the middle value not above those at the ends. -/
def Proper (f : K → K) (b : Brak K) : Prop := b.x1 < b.xm ∧ b.xm < b.x2 ∧ f b.xm ≤ f b.x1 ∧ f b.xm ≤ f b.x2

theorem brentStart_inv {f : K → K} {b : Brak K} (h : Proper f b) : BrInv f b.x1 b.x2 (brentStart f b) [b.xm] :=
  ⟨rfl, h.1, h.2.1, h.2.2.1, h.2.2.2, le_refl _, le_refl _, fun _ => rfl, by simp [brentStart], by simp [brentStart], by simp [h.1, h.2.1]⟩

/-- **C48.** From a proper bracket, `brent` returns a point inside it and the function value there, which is the smallest of all values it has computed, in
particular not above that at the middle of the bracket; it evaluates the function only inside the bracket, at most `maxit + 1` times, and the only exception is
that of too many iterations. -/
theorem C48_brent (f : K → K) (b : Brak K) (tol : K) (maxit : ℕ) (ht : 0 ≤ tol) (hb : Proper f b) :
    let r := brent f b tol maxit
    (∀ x fx, r.1 = .ok (x, fx) → fx = f x ∧ b.x1 < x ∧ x < b.x2 ∧ fx ≤ f b.xm ∧ x ∈ r.2 ∧ (∀ u ∈ r.2, fx ≤ f u) ∧ ∀ u ∈ r.2, b.x1 < u ∧ u < b.x2) ∧
      (∀ e, r.1 = .error e → e = .iter) ∧ r.2.length ≤ maxit + 1 := by
  intro r
  obtain ⟨i1, i2, i3⟩ := brentLoop_inv f ht maxit _ _ (brentStart_inv hb)
  have hmem : ∀ (n : ℕ) (s : BrSt K) (calls : List K), ∀ c ∈ calls, c ∈ (brentLoop f tol n s calls).2 := by
    intro n
    induction n with
    | zero => intro s calls c hc; exact hc
    | succ n ih =>
      intro s calls c hc
      unfold brentLoop
      dsimp only
      split_ifs
      · exact hc
      · cases brentStep s (1 / 2 * (s.a + s.b)) (tol * |s.x| + eps0) (2 * (tol * |s.x| + eps0)) with
        | none => exact hc
        | some ed => exact ih _ _ c (List.mem_cons_of_mem _ hc)
  refine ⟨fun x fx hx => ?_, i2, by unfold r brent; simpa using i3⟩
  obtain ⟨s, rfl, rfl, h, -⟩ := i1 x fx hx
  exact ⟨h.fx, lt_of_le_of_lt h.lo h.ax, lt_of_lt_of_le h.xb h.hi, h.best _ (hmem _ _ _ _ (by simp)), h.mem, h.best, h.inside⟩

/-- **C48.** For a continuous function the point returned by `brent` is within `2 (tol |x| + 1e-10)` of a local minimum not above the value returned. -/
theorem C48_brent_local (f : ℝ → ℝ) (hf : Continuous f) (b : Brak ℝ) (tol : ℝ) (maxit : ℕ) (ht : 0 ≤ tol) (hb : Proper f b) (x fx : ℝ)
    (h : (brent f b tol maxit).1 = .ok (x, fx)) : ∃ z, IsLocalMin f z ∧ f z ≤ fx ∧ |z - x| ≤ 2 * (tol * |x| + 1 / 10 ^ 10) := by
  obtain ⟨i1, -, -⟩ := brentLoop_inv f ht maxit _ _ (brentStart_inv hb)
  obtain ⟨s, rfl, rfl, hs, hc⟩ := i1 x fx h
  change |s.x - 1 / 2 * (s.a + s.b)| ≤ 2 * (tol * |s.x| + 1 / 10 ^ 10) - 1 / 2 * (s.b - s.a) at hc
  have hc' := abs_le.mp hc
  have close : ∀ z, s.a ≤ z → z ≤ s.b → |z - s.x| ≤ 2 * (tol * |s.x| + 1 / 10 ^ 10) := by
    intro z h1 h2
    rw [abs_le]
    constructor <;> linarith [hc'.1, hc'.2]
  obtain ⟨z, hz, hmin⟩ := isCompact_Icc.exists_isMinOn (s := Set.Icc s.a s.b) ⟨s.x, hs.ax.le, hs.xb.le⟩ hf.continuousOn
  have hzx : f z ≤ f s.x := hmin ⟨hs.ax.le, hs.xb.le⟩
  by_cases hz' : s.a < z ∧ z < s.b
  · exact ⟨z, hmin.isLocalMin (Icc_mem_nhds hz'.1 hz'.2), by rw [hs.fx]; exact hzx, close z hz.1 hz.2⟩
  · -- the minimum is at an end, whose value is not below that at the interior point returned
    have hxz : f s.x ≤ f z := by
      rcases eq_or_lt_of_le hz.1 with e | e
      · rw [← e, ← hs.fx]; exact hs.fa
      · rcases eq_or_lt_of_le hz.2 with e' | e'
        · rw [e', ← hs.fx]; exact hs.fb
        · exact absurd ⟨e, e'⟩ hz'
    have hxm : IsMinOn f (Set.Icc s.a s.b) s.x := fun y hy => hxz.trans (hmin hy)
    exact ⟨s.x, hxm.isLocalMin (Icc_mem_nhds hs.ax hs.xb), hs.fx.ge, close _ hs.ax.le hs.xb.le⟩

/-! ### linmin and powell -/

section
variable {P : Type*} [AddCommGroup P] [Module K P]

/-- **C48.** `linmin` returns the starting point moved by a multiple of the direction, this displacement and the function value there, which is not above that at the
start. -/
theorem C48_linmin (fuel : ℕ) (f : P → K) (p d p' d' : P) (tol v : K) (ht : 0 ≤ tol) (h : linmin fuel f p d tol = some (.ok (p', d', v))) :
    (∃ l : K, d' = l • d) ∧ p' = p + d' ∧ v = f p' ∧ v ≤ f p := by
  unfold linmin at h
  dsimp only at h
  cases hb : minBracket fuel (fun x : K => f (p + x • d)) 0 1 with
  | none => rw [hb] at h; simp at h
  | some b =>
    rw [hb] at h
    dsimp only at h
    obtain ⟨q1, q2, q3, q4, q5, q6, q7, -, q8, -⟩ := C48_bracket fuel _ 0 1 zero_ne_one b hb
    have hp : Proper (fun x : K => f (p + x • d)) b := ⟨q1, q2, by rw [q4, q3] at q6; exact q6, by rw [q4, q5] at q7; exact q7⟩
    obtain ⟨r1, -, -⟩ := C48_brent _ b tol 100 ht hp
    cases hr : (brent (fun x : K => f (p + x • d)) b tol 100).1 with
    | error e => rw [hr] at h; simp at h
    | ok xv =>
      obtain ⟨l, w⟩ := xv
      rw [hr] at h
      simp only [Option.some.injEq, Except.ok.injEq, Prod.mk.injEq] at h
      obtain ⟨e1, e2, e3⟩ := h
      obtain ⟨s1, -, -, s2, -⟩ := r1 l w hr
      refine ⟨⟨l, e2.symm⟩, by rw [← e1, ← e2], ?_, ?_⟩
      · rw [← e3, ← e1]; exact s1
      · rw [← e3]
        refine s2.trans ?_
        rw [← q4]
        simpa using q8

theorem sweep_ok (fuel : ℕ) (f : P → K) : ∀ (l : List P) (i : ℕ) (p : P) (fret : K) (ib : ℕ) (dl : K) (p' : P) (v : K) (ib' : ℕ) (dl' : K), fret = f p →
    sweep fuel f l i p fret ib dl = some (.ok (p', v, ib', dl')) → v = f p' ∧ v ≤ f p
  | [], _, p, fret, _, _, p', v, _, _, hf, h => by
    simp only [sweep, Option.some.injEq, Except.ok.injEq, Prod.mk.injEq] at h
    obtain ⟨rfl, rfl, -⟩ := h
    exact ⟨hf, hf.le⟩
  | d :: l, i, p, fret, ib, dl, p', v, ib', dl', hf, h => by
    unfold sweep at h
    dsimp only at h
    cases hl : linmin fuel f p d linTol with
    | none => rw [hl] at h; simp at h
    | some r =>
      rw [hl] at h
      cases r with
      | error e => simp at h
      | ok r =>
        obtain ⟨p1, d1, v1⟩ := r
        dsimp only at h
        obtain ⟨-, -, s1, s2⟩ := C48_linmin fuel f p d p1 d1 linTol v1 (by unfold linTol; positivity) hl
        split_ifs at h
        · obtain ⟨t1, t2⟩ := sweep_ok fuel f l _ _ _ _ _ _ _ _ _ s1 h
          exact ⟨t1, t2.trans (by rw [← s1]; exact s2)⟩
        · obtain ⟨t1, t2⟩ := sweep_ok fuel f l _ _ _ _ _ _ _ _ _ s1 h
          exact ⟨t1, t2.trans (by rw [← s1]; exact s2)⟩

theorem powellLoop_ok (fuel : ℕ) (f : P → K) (ftol : K) (maxit : ℕ) : ∀ (n : ℕ) (drxns : List P) (p p0 : P) (fret : K) (iter : ℕ) (p' : P) (v : K) (it : ℕ), fret = f p →
    powellLoop fuel f ftol maxit n drxns p p0 fret iter = some (.ok (p', v, it)) → v = f p' ∧ v ≤ f p ∧ iter < it ∧ (iter < maxit → it ≤ maxit)
  | 0, _, _, _, _, _, _, _, _, _, h => by simp [powellLoop] at h
  | n + 1, drxns, p, p0, fret, iter, p', v, it, hf, h => by
    unfold powellLoop at h
    dsimp only at h
    cases hs : sweep fuel f drxns 0 p fret 0 0 with
    | none => rw [hs] at h; simp at h
    | some r =>
      rw [hs] at h
      cases r with
      | error e => simp at h
      | ok r =>
        obtain ⟨p1, v1, ib, dl⟩ := r
        dsimp only at h
        obtain ⟨s1, s2⟩ := sweep_ok fuel f drxns 0 p fret 0 0 p1 v1 ib dl hf hs
        by_cases c1 : 2 * |fret - v1| ≤ ftol * (|fret| + |v1|)
        · rw [if_pos c1] at h
          simp only [Option.some.injEq, Except.ok.injEq, Prod.mk.injEq] at h
          obtain ⟨rfl, rfl, rfl⟩ := h
          exact ⟨s1, s2, by omega, fun _ => by omega⟩
        rw [if_neg c1] at h
        by_cases c2 : iter + 1 = maxit
        · rw [if_pos c2] at h; simp at h
        rw [if_neg c2] at h
        have fin : ∀ q, v1 = f p1 → v = f p' ∧ v ≤ f q ∧ iter + 1 < it ∧ (iter + 1 < maxit → it ≤ maxit) → f q ≤ f p → v = f p' ∧ v ≤ f p ∧ iter < it ∧ (iter < maxit → it ≤ maxit) :=
          fun q _ hq hqp => ⟨hq.1, hq.2.1.trans hqp, by omega, fun hm => hq.2.2.2 (by omega)⟩
        by_cases c3 : f ((2 : K) • p1 - p0) ≥ fret
        · rw [if_pos c3] at h
          exact fin p1 s1 (powellLoop_ok fuel f ftol maxit n _ _ _ _ _ _ _ _ s1 h) (by rw [← s1]; exact s2)
        rw [if_neg c3] at h
        split_ifs at h
        · exact fin p1 s1 (powellLoop_ok fuel f ftol maxit n _ _ _ _ _ _ _ _ s1 h) (by rw [← s1]; exact s2)
        · cases hl : linmin fuel f p1 (p1 - p0) linTol with
          | none => rw [hl] at h; simp at h
          | some r =>
            rw [hl] at h
            cases r with
            | error e => simp at h
            | ok r =>
              obtain ⟨p2, d2, v2⟩ := r
              dsimp only at h
              obtain ⟨-, -, t1, t2⟩ := C48_linmin fuel f p1 _ p2 d2 linTol v2 (by unfold linTol; positivity) hl
              exact fin p2 s1 (powellLoop_ok fuel f ftol maxit n _ _ _ _ _ _ _ _ t1 h) (by rw [← t1]; exact t2.trans (by rw [← s1]; exact s2))

/-- **C48.** `powell` returns a point, the function value there, which is not above that at the starting point, and a number of iterations between 1 and `maxit`,
whatever the directions. -/
theorem C48_powell (fuel : ℕ) (f : P → K) (p p' : P) (drxns : List P) (ftol v : K) (maxit it : ℕ) (shuffle : Bool) (hm : 0 < maxit)
    (h : powell fuel f p drxns ftol maxit shuffle = some (.ok (p', v, it))) : v = f p' ∧ v ≤ f p ∧ 1 ≤ it ∧ it ≤ maxit := by
  obtain ⟨h1, h2, h3, h4⟩ := powellLoop_ok fuel f ftol maxit fuel _ p p (f p) 0 p' v it rfl h
  exact ⟨h1, h2, h3, h4 hm⟩

/-- Consequently a direction along which the function is constant makes `linmin`, and with it `powell`, run for ever. -/
theorem C48_linmin_never (fuel : ℕ) (f : P → K) (p d : P) (tol : K) (h : ∀ x : K, f (p + x • d) = f p) : linmin fuel f p d tol = none := by
  unfold linmin
  dsimp only
  rw [C48_bracket_never fuel _ 0 1 (Or.inl ⟨f p, h⟩)]

theorem C48_powell_never (fuel : ℕ) (f : P → K) (p : P) (d : P) (drxns : List P) (ftol : K) (maxit : ℕ) (h : ∀ x : K, f (p + x • d) = f p) :
    powell fuel f p (d :: drxns) ftol maxit false = none := by
  unfold powell
  cases fuel with
  | zero => rfl
  | succ n =>
    unfold powellLoop
    simp only [Bool.false_eq_true, if_false]
    unfold sweep
    rw [C48_linmin_never _ f p d _ h]

end

/-- A concrete search: the bracket found for (x-1)^2 from 0 and 1, a proper one, and Brent's answer within it. -/
example : ∃ b, minBracket 5 (fun x : ℚ => (x - 1) ^ 2) 0 1 = some b ∧ Proper (fun x : ℚ => (x - 1) ^ 2) b ∧ b.xm = 1 := by
  refine ⟨⟨0, 1, 1, 0, 1 + 1618034 / 1000000, (1618034 / 1000000) ^ 2⟩, ?_, ?_, ?_⟩
  · simp [minBracket, brakLoop, brakStart, brakStep, gold]; norm_num
  · unfold Proper; norm_num
  · rfl
example : (brent (fun x : ℚ => (x - 1) ^ 2) ⟨0, 1, 1, 0, 2, 1⟩ (1 / 2) 9).1 = .ok (1, 0) := by decide +kernel

end Verif.NrMin
