import Verif.Deriv.ObsInfoLemmas
import Mathlib.Tactic.Positivity
import Mathlib.Tactic.IntervalCases

/-!
# The observed information (C70, C71, C87, C88)

Definitions of this file that are part of statements: `quad`, `axis`.
-/

set_option linter.unusedSectionVars false
set_option linter.unusedSimpArgs false

namespace Verif.Obs

open Finset

/-! ## Helper lemmas -/

/-- An extrapolation of values that are all the same. -/
theorem extrap_const {iter : ℕ} (hi : 1 ≤ iter) {d : Vec} {v : ℝ} (hd : ∀ j, 1 ≤ j → j ≤ iter → d j = v) (junk : (ℕ → ℕ → ℝ) × ℝ) : extrap iter d junk = (v, 0) := by
  unfold extrap
  split_ifs with h
  · obtain ⟨m, m1, m2, hs⟩ := ridEx_spec ratio d (n := iter) (by omega) junk
    have hc : (1 : ℝ) < 1 / ratio * (1 / ratio) := by norm_num [ratio]
    have ht : ∀ j i, 1 ≤ j → j ≤ i → i ≤ iter → tab (1 / ratio * (1 / ratio)) d iter j i = v := by
      intro j i h1 h2 h3
      refine tab_exact hc (k := 0) (p := fun _ => v) (x := fun i => (1 / (1 / ratio * (1 / ratio))) ^ i) ?_ ?_ (by omega) h2 h3
      · intro i hi
        obtain ⟨q, rfl⟩ : ∃ q, i = q + 1 := ⟨i - 1, by omega⟩
        have h0 : ratio ≠ 0 := by norm_num [ratio]
        simp only [Nat.add_sub_cancel, pow_succ]
        field_simp
      · intro i h4 h5
        rw [hd _ (by omega) (by omega)]; simp
    have he : ∀ j i, 2 ≤ j → j ≤ i → i ≤ iter → terr (1 / ratio * (1 / ratio)) d iter j i = 0 := by
      intro j i h1 h2 h3
      unfold terr
      rw [ht j i (by omega) h2 h3, ht (j - 1) i (by omega) (by omega) h3, ht (j - 1) (i - 1) (by omega) (by omega) (by omega)]
      simp
    rcases hs.res with ⟨r1, -, -⟩ | ⟨i', j', h1, h2, h3, h4, h5, -⟩
    · have := hs.min 2 2 le_rfl le_rfl m1
      rw [he 2 2 le_rfl le_rfl (by omega), r1] at this
      norm_num at this
    · rw [h4, h5, ht j' i' (by omega) h2 (by omega), he j' i' h1 h2 (by omega)]
  · rw [hd 1 le_rfl hi]

/-- After the differences for one axis the mode array can be restored. -/
theorem put_restore (mu mu' : Vec) (i : ℕ) (v : ℝ) (h : ∀ k, k ≠ i → mu' k = mu k) (hv : v = mu i) : put mu' i v = mu := by
  funext k
  by_cases hk : k = i
  · subst hk; rw [put_self, hv]
  · rw [put_ne _ _ hk, h k hk]

theorem diag_ok {lf : LogF} {lfmax : ℝ} {dp : Vec} {iter : ℕ} {junk : Junk} : ∀ (cnt i : ℕ) (mu : Vec) (s : Info) (mu' : Vec) (s' : Info),
    diag lf lfmax dp iter junk cnt i mu s = (mu', .ok s') →
    mu' = mu ∧ (∀ a b, ¬ (a = b ∧ i ≤ a ∧ a < i + cnt) → s'.info a b = s.info a b ∧ s'.ierr a b = s.ierr a b) ∧
    ∀ k, i ≤ k → k < i + cnt → ∃ (mu1 : Vec) (d : Vec), diffs lf lfmax (fun t m => put m k (mu k + t)) (fun j => dp k * ratio ^ (iter - j)) iter 1 mu junk.d2f = (mu1, .ok d) ∧
      s'.info k k = -(extrap iter d junk.rid).1 ∧ s'.ierr k k = |(extrap iter d junk.rid).2| := by
  intro cnt
  induction cnt with
  | zero =>
    intro i mu s mu' s' h
    simp only [diag, Prod.mk.injEq, Except.ok.injEq] at h
    obtain ⟨rfl, rfl⟩ := h
    exact ⟨rfl, fun a b _ => ⟨rfl, rfl⟩, fun k a b => by omega⟩
  | succ cnt ih =>
    intro i mu s mu' s' h
    rw [diag] at h
    dsimp only at h
    rcases hd : diffs lf lfmax (fun t m => put m i (mu i + t)) (fun j => dp i * ratio ^ (iter - j)) iter 1 mu junk.d2f with ⟨mu1, e | d⟩
    · rw [hd] at h; simp at h
    · rw [hd] at h
      dsimp only at h
      have hr : put mu1 i (mu i) = mu := by
        apply put_restore _ _ _ _ _ rfl
        intro k hk
        have := diffs_frame (lf := lf) (lfmax := lfmax) (move := fun t m => put m i (mu i + t)) (h := fun j => dp i * ratio ^ (iter - j)) (k0 := k) (fun t m => put_ne _ _ hk) iter 1 mu junk.d2f
        rw [hd] at this
        exact this
      rw [hr] at h
      obtain ⟨h1, h2, h3⟩ := ih _ _ _ _ _ h
      refine ⟨h1, ?_, ?_⟩
      · intro a b hab
        obtain ⟨q1, q2⟩ := h2 a b (by omega)
        rw [q1, q2]
        dsimp only
        by_cases hh : a = i ∧ b = i
        · omega
        · rw [put2_ne _ _ hh, put2_ne _ _ hh]; exact ⟨rfl, rfl⟩
      · intro k k1 k2
        by_cases hk : k = i
        · subst hk
          obtain ⟨q1, q2⟩ := h2 k k (by omega)
          refine ⟨mu1, d, hd, ?_, ?_⟩
          · rw [q1]; exact put2_self _ _ _ _
          · rw [q2]; exact put2_self _ _ _ _
        · exact h3 k (by omega) (by omega)

theorem mixed_ok {lf : LogF} {lfmax : ℝ} {iter : ℕ} {junk : Junk} {i : ℕ} {mu1 sig1 : ℝ} : ∀ (cnt j : ℕ) (mu : Vec) (s : Info) (mu' : Vec) (s' : Info), i < j →
    mixed lf lfmax iter junk i mu1 sig1 cnt j mu s = (mu', .ok s') →
    (∀ k, k ≠ i → mu' k = mu k) ∧ (∀ a b, ¬ (a = i ∧ j ≤ b ∧ b < j + cnt) → ¬ (b = i ∧ j ≤ a ∧ a < j + cnt) → s'.info a b = s.info a b ∧ s'.ierr a b = s.ierr a b) ∧
    ((∀ a b, s.info a b = s.info b a ∧ s.ierr a b = s.ierr b a) → ∀ a b, s'.info a b = s'.info b a ∧ s'.ierr a b = s'.ierr b a) := by
  intro cnt
  induction cnt with
  | zero =>
    intro j mu s mu' s' _ h
    simp only [mixed, Prod.mk.injEq, Except.ok.injEq] at h
    obtain ⟨rfl, rfl⟩ := h
    exact ⟨fun _ _ => rfl, fun _ _ _ _ => ⟨rfl, rfl⟩, fun h => h⟩
  | succ cnt ih =>
    intro j mu s mu' s' hij h
    rw [mixed] at h
    dsimp only at h
    split_ifs at h with h0
    · simp at h
    rcases hd : diffs lf lfmax (fun t m => put (put m i (mu1 + t * sig1)) j (mu j + t * (1 / √(s.info j j)))) (fun k => ratio ^ (iter - k)) iter 1 mu junk.d2f with ⟨mu2, e | d⟩
    · rw [hd] at h; simp at h
    · rw [hd] at h
      dsimp only at h
      obtain ⟨h1, h2, h3⟩ := ih _ _ _ _ _ (by omega) h
      refine ⟨?_, ?_, ?_⟩
      · intro k hk
        rw [h1 k hk]
        by_cases hkj : k = j
        · subst hkj; rw [put_self]
        · rw [put_ne _ _ hkj]
          have := diffs_frame (lf := lf) (lfmax := lfmax) (move := fun t m => put (put m i (mu1 + t * sig1)) j (mu j + t * (1 / √(s.info j j)))) (h := fun k => ratio ^ (iter - k)) (k0 := k)
            (fun t m => by rw [put_ne _ _ hkj, put_ne _ _ hk]) iter 1 mu junk.d2f
          rw [hd] at this
          exact this
      · intro a b ha hb
        obtain ⟨q1, q2⟩ := h2 a b (by omega) (by omega)
        rw [q1, q2]
        dsimp only
        rw [put2_ne _ _ (by omega), put2_ne _ _ (by omega), put2_ne _ _ (by omega), put2_ne _ _ (by omega)]
        exact ⟨rfl, rfl⟩
      · intro hs
        apply h3
        intro a b
        dsimp only
        have key : ∀ (M : ℕ → ℕ → ℝ) (v : ℝ), (∀ a b, M a b = M b a) → put2 (put2 M i j v) j i v a b = put2 (put2 M i j v) j i v b a := by
          intro M v hM
          unfold put2
          by_cases e1 : a = i <;> by_cases e2 : a = j <;> by_cases e3 : b = i <;> by_cases e4 : b = j <;> simp [e1, e2, e3, e4, hM a b] <;> first | omega | (subst_vars; simp_all) | skip
        exact ⟨key _ _ fun a b => (hs a b).1, key _ _ fun a b => (hs a b).2⟩

theorem pairs_ok {lf : LogF} {lfmax : ℝ} {n iter : ℕ} {junk : Junk} : ∀ (cnt i : ℕ) (mu : Vec) (s : Info) (mu' : Vec) (s' : Info),
    pairs lf lfmax n iter junk cnt i mu s = (mu', .ok s') →
    mu' = mu ∧ (∀ a, s'.info a a = s.info a a ∧ s'.ierr a a = s.ierr a a) ∧
    ((∀ a b, s.info a b = s.info b a ∧ s.ierr a b = s.ierr b a) → ∀ a b, s'.info a b = s'.info b a ∧ s'.ierr a b = s'.ierr b a) := by
  intro cnt
  induction cnt with
  | zero =>
    intro i mu s mu' s' h
    simp only [pairs, Prod.mk.injEq, Except.ok.injEq] at h
    obtain ⟨rfl, rfl⟩ := h
    exact ⟨rfl, fun _ => ⟨rfl, rfl⟩, fun h => h⟩
  | succ cnt ih =>
    intro i mu s mu' s' h
    rw [pairs] at h
    split_ifs at h with h0
    · simp at h
    rcases hm : mixed lf lfmax iter junk i (mu i) (1 / √(s.info i i)) (n - i) (i + 1) mu s with ⟨mu1, e | s1⟩
    · rw [hm] at h; simp at h
    · rw [hm] at h
      dsimp only at h
      obtain ⟨q1, q2, q3⟩ := mixed_ok _ _ _ _ _ _ (by omega) hm
      rw [put_restore _ _ _ _ q1 rfl] at h
      obtain ⟨h1, h2, h3⟩ := ih _ _ _ _ _ h
      refine ⟨h1, ?_, fun hs => h3 (q3 hs)⟩
      intro a
      obtain ⟨r1, r2⟩ := q2 a a (by omega) (by omega)
      rw [(h2 a).1, (h2 a).2, r1, r2]
      exact ⟨rfl, rfl⟩

/-- What a run that returns has done. -/
theorem obsinfo_ok {lf : LogF} {n : ℕ} {mle dp : Vec} {maxll : Option ℝ} {niter : ℕ} {junk : Junk} {mu' : Vec} {s : Info} (h : obsinfo lf n mle dp maxll niter junk = (mu', .ok s)) :
    mu' = mle ∧ (∀ a b, s.info a b = s.info b a ∧ s.ierr a b = s.ierr b a) ∧
    ∃ m, maxll.elim (lf mle) .ok = .ok m ∧ ∀ k, 1 ≤ k → k ≤ n → ∃ (mu1 : Vec) (d : Vec),
      diffs lf m (fun t x => put x k (mle k + t)) (fun j => dp k * ratio ^ (niter + 1 - j)) (niter + 1) 1 mle junk.d2f = (mu1, .ok d) ∧
      s.info k k = -(extrap (niter + 1) d junk.rid).1 ∧ s.ierr k k = |(extrap (niter + 1) d junk.rid).2| := by
  rw [obsinfo] at h
  rcases hm : maxll.elim (lf mle) .ok with e | m
  · rw [hm] at h; simp at h
  rw [hm] at h
  dsimp only at h
  rw [ninfol] at h
  rcases hd : diag lf m dp (niter + 1) junk n 1 mle ⟨fun _ _ => 0, fun _ _ => 0⟩ with ⟨mu1, e | s1⟩
  · rw [hd] at h; simp at h
  rw [hd] at h
  dsimp only at h
  obtain ⟨d1, d2, d3⟩ := diag_ok _ _ _ _ _ _ hd
  obtain ⟨p1, p2, p3⟩ := pairs_ok _ _ _ _ _ _ h
  refine ⟨p1.trans d1, p3 ?_, m, rfl, ?_⟩
  · intro a b
    by_cases hab : a = b
    · subst hab; exact ⟨rfl, rfl⟩
    · obtain ⟨q1, q2⟩ := d2 a b (by omega)
      obtain ⟨q3, q4⟩ := d2 b a (by omega)
      rw [q1, q2, q3, q4]; exact ⟨rfl, rfl⟩
  · intro k k1 k2
    rw [(p2 k).1, (p2 k).2]
    exact d3 k k1 (by omega)

/-! ## C70: quadratic log likelihoods -/

/-- A quadratic function with its stationary point at `mu`, value `c` there and Hessian `-H`. -/
noncomputable def quad (n : ℕ) (c : ℝ) (H : ℕ → ℕ → ℝ) (mu x : Vec) : ℝ := c - 1 / 2 * ∑ a ∈ Icc 1 n, ∑ b ∈ Icc 1 n, H a b * (x a - mu a) * (x b - mu b)

theorem quad_two {n : ℕ} {c : ℝ} {H : ℕ → ℕ → ℝ} {mu : Vec} {i j : ℕ} (hi : 1 ≤ i ∧ i ≤ n) (hj : 1 ≤ j ∧ j ≤ n) (hij : i ≠ j) (u w : ℝ) :
    quad n c H mu (put (put mu i (mu i + u)) j (mu j + w)) = c - 1 / 2 * (H i i * u * u + H i j * u * w + H j i * w * u + H j j * w * w) := by
  have hx : ∀ a, put (put mu i (mu i + u)) j (mu j + w) a - mu a = (if a = i then u else 0) + if a = j then w else 0 := by
    intro a
    unfold put
    by_cases e1 : a = i <;> by_cases e2 : a = j <;> simp [e1, e2] <;> first | omega | (subst_vars; simp_all) | skip
  unfold quad
  simp only [hx, mul_add, add_mul, sum_add_distrib, mul_ite, ite_mul, mul_zero, zero_mul, sum_ite_eq', mem_Icc, hi, hj, and_self, if_true]
  simp [hi, hj]
  ring

theorem quad_one {n : ℕ} {c : ℝ} {H : ℕ → ℕ → ℝ} {mu : Vec} {i : ℕ} (hi : 1 ≤ i ∧ i ≤ n) (u : ℝ) :
    quad n c H mu (put mu i (mu i + u)) = c - 1 / 2 * (H i i * u * u) := by
  have hx : ∀ a, put mu i (mu i + u) a - mu a = if a = i then u else 0 := by
    intro a
    unfold put
    by_cases e1 : a = i <;> simp [e1]
  unfold quad
  simp only [hx, mul_ite, ite_mul, mul_zero, zero_mul, sum_ite_eq', mem_Icc, hi, and_self, if_true]

section quadratic

variable {n : ℕ} {c : ℝ} {H : ℕ → ℕ → ℝ} {mle dp : Vec} {lf : LogF}

/-- The log likelihood is quadratic at all points no farther from the mode, in each coordinate, than the step and than the standard deviation. -/
def Near (lf : LogF) (n : ℕ) (c : ℝ) (H : ℕ → ℕ → ℝ) (mle dp : Vec) : Prop :=
  ∀ x : Vec, (∀ k, 1 ≤ k → k ≤ n → |x k - mle k| ≤ max |dp k| (1 / √(H k k))) → lf x = .ok (quad n c H mle x)

theorem near_one (hq : Near lf n c H mle dp) {i : ℕ} (hi : 1 ≤ i ∧ i ≤ n) {t : ℝ} (ht : |t| ≤ max |dp i| (1 / √(H i i))) :
    lf (put mle i (mle i + t)) = .ok (c - 1 / 2 * (H i i * t * t)) := by
  rw [hq _ (fun k k1 k2 => ?_), quad_one hi]
  by_cases hk : k = i
  · subst hk; rw [put_self, add_sub_cancel_left]; exact ht
  · rw [put_ne _ _ hk, sub_self, abs_zero]; exact le_max_of_le_left (abs_nonneg _)

theorem near_two (hq : Near lf n c H mle dp) {i j : ℕ} (hi : 1 ≤ i ∧ i ≤ n) (hj : 1 ≤ j ∧ j ≤ n) (hij : i ≠ j) {u w : ℝ} (hu : |u| ≤ 1 / √(H i i)) (hw : |w| ≤ 1 / √(H j j)) :
    lf (put (put mle i (mle i + u)) j (mle j + w)) = .ok (c - 1 / 2 * (H i i * u * u + H i j * u * w + H j i * w * u + H j j * w * w)) := by
  rw [hq _ (fun k k1 k2 => ?_), quad_two hi hj hij]
  by_cases hk : k = j
  · subst hk; rw [put_self, add_sub_cancel_left]; exact le_max_of_le_right hw
  · rw [put_ne _ _ hk]
    by_cases hk : k = i
    · subst hk; rw [put_self, add_sub_cancel_left]; exact le_max_of_le_right hu
    · rw [put_ne _ _ hk, sub_self, abs_zero]; exact le_max_of_le_left (abs_nonneg _)

theorem diag_quad (hq : Near lf n c H mle dp) (hd : ∀ i, 1 ≤ i → i ≤ n → dp i ≠ 0) {iter : ℕ} (hit : 1 ≤ iter) (junk : Junk) : ∀ (cnt i : ℕ) (s : Info), 1 ≤ i → i + cnt = n + 1 →
    (∀ k, 1 ≤ k → k < i → s.info k k = H k k ∧ s.ierr k k = 0) →
    ∃ s', diag lf c dp iter junk cnt i mle s = (mle, .ok s') ∧ ∀ k, 1 ≤ k → k ≤ n → s'.info k k = H k k ∧ s'.ierr k k = 0 := by
  intro cnt
  induction cnt with
  | zero => exact fun i s h1 h2 h => ⟨s, rfl, fun k a b => h k a (by omega)⟩
  | succ cnt ih =>
    intro i s h1 h2 h
    rw [diag]
    dsimp only
    have hi : 1 ≤ i ∧ i ≤ n := by omega
    have hh : ∀ j, dp i * ratio ^ (iter - j) ≠ 0 := fun j => mul_ne_zero (hd i hi.1 hi.2) (ratio_pow_ne _)
    have hle : ∀ j, |dp i * ratio ^ (iter - j)| ≤ |dp i| := fun j => by rw [abs_mul]; exact mul_le_of_le_one_right (abs_nonneg _) (ratio_pow_le _)
    obtain ⟨mu', d, e, hmu, hdd, -⟩ := diffs_local (lf := lf) (lfmax := c) (move := fun t m => put m i (mle i + t)) (h := fun j => dp i * ratio ^ (iter - j))
      (P := fun t => put mle i (mle i + t)) (F := fun t => c - 1 / 2 * (H i i * t * t)) (D := fun t => |t| ≤ |dp i|) (fun s t => put_put _ _ _ _) (fun t ht => near_one hq hi (le_max_of_le_left ht)) iter 1 mle junk.d2f
      (fun j _ _ => ⟨hh j, hle j, by rw [abs_neg]; exact hle j⟩) (fun t => rfl)
    rw [e]
    dsimp only
    rw [extrap_const hit (v := -H i i) (fun j j1 j2 => by
      rw [hdd j j1 (by omega), div_eq_iff (pow_ne_zero _ (hh j))]
      ring)]
    dsimp only
    have hr : put mu' i (mle i) = mle := by
      rcases hmu with rfl | ⟨t, rfl⟩
      · exact put_get _ _
      · rw [put_put, put_get]
    rw [hr, neg_neg, abs_zero]
    apply ih (i + 1) _ (by omega) (by omega)
    intro k k1 k2
    dsimp only
    by_cases hk : k = i
    · subst hk; rw [put2_self, put2_self]; exact ⟨rfl, rfl⟩
    · rw [put2_ne _ _ (by omega), put2_ne _ _ (by omega)]; exact h k k1 (by omega)

theorem mixed_quad (hq : Near lf n c H mle dp) (hs : ∀ a b, 1 ≤ a → a ≤ n → 1 ≤ b → b ≤ n → H a b = H b a) (hp : ∀ a, 1 ≤ a → a ≤ n → 0 < H a a) {iter : ℕ} (hit : 1 ≤ iter) (junk : Junk) {i : ℕ} (hi : 1 ≤ i ∧ i ≤ n) :
    ∀ (cnt j : ℕ) (mu : Vec) (s : Info), i < j → j + cnt = n + 1 → (∀ k, k ≠ i → mu k = mle k) →
    (∀ a b, 1 ≤ a → a ≤ n → 1 ≤ b → b ≤ n → (a = b ∨ a < i ∨ b < i ∨ (a = i ∧ b < j) ∨ (b = i ∧ a < j)) → s.info a b = H a b ∧ s.ierr a b = 0) →
    ∃ mu' s', mixed lf c iter junk i (mle i) (1 / √(H i i)) cnt j mu s = (mu', .ok s') ∧ (∀ k, k ≠ i → mu' k = mle k) ∧
      ∀ a b, 1 ≤ a → a ≤ n → 1 ≤ b → b ≤ n → (a = b ∨ a ≤ i ∨ b ≤ i) → s'.info a b = H a b ∧ s'.ierr a b = 0 := by
  intro cnt
  induction cnt with
  | zero => exact fun j mu s h1 h2 h3 h => ⟨mu, s, rfl, h3, fun a b a1 a2 b1 b2 hab => h a b a1 a2 b1 b2 (by omega)⟩
  | succ cnt ih =>
    intro j mu s h1 h2 h3 h
    have hj : 1 ≤ j ∧ j ≤ n := by omega
    rw [mixed]
    dsimp only
    rw [(h j j hj.1 hj.2 hj.1 hj.2 (Or.inl rfl)).1, if_neg (not_le.2 (hp j hj.1 hj.2)), h3 j (by omega)]
    set s1 := 1 / √(H i i) with hs1
    set s2 := 1 / √(H j j) with hs2
    have q1 : 0 < s1 := by rw [hs1]; exact one_div_pos.2 (Real.sqrt_pos.2 (hp i hi.1 hi.2))
    have q2 : 0 < s2 := by rw [hs2]; exact one_div_pos.2 (Real.sqrt_pos.2 (hp j hj.1 hj.2))
    have e1 : H i i * (s1 * s1) = 1 := by
      have := hp i hi.1 hi.2
      rw [hs1, div_mul_div_comm, one_mul, Real.mul_self_sqrt this.le]; field_simp
    have e2 : H j j * (s2 * s2) = 1 := by
      have := hp j hj.1 hj.2
      rw [hs2, div_mul_div_comm, one_mul, Real.mul_self_sqrt this.le]; field_simp
    have hmv : ∀ (m : Vec) (t : ℝ), (∀ k, k ≠ i → k ≠ j → m k = mle k) → put (put m i (mle i + t * s1)) j (mle j + t * s2) = put (put mle i (mle i + t * s1)) j (mle j + t * s2) := by
      intro m t hm
      funext k
      unfold put
      split_ifs with a b
      · rfl
      · rfl
      · exact hm k b a
    obtain ⟨mu', d, e, hmu, hdd, -⟩ := diffs_local (lf := lf) (lfmax := c) (move := fun t m => put (put m i (mle i + t * s1)) j (mle j + t * s2)) (h := fun k => ratio ^ (iter - k))
      (P := fun t => put (put mle i (mle i + t * s1)) j (mle j + t * s2)) (F := fun t => c - 1 / 2 * (H i i * (t * s1) * (t * s1) + H i j * (t * s1) * (t * s2) + H j i * (t * s2) * (t * s1) + H j j * (t * s2) * (t * s2))) (D := fun t => |t| ≤ 1)
      (fun s t => hmv _ t (fun k a b => by rw [put_ne _ _ b, put_ne _ _ a])) (fun t ht => near_two hq hi hj (by omega) (by rw [abs_mul, abs_of_pos q1]; exact mul_le_of_le_one_left q1.le ht) (by rw [abs_mul, abs_of_pos q2]; exact mul_le_of_le_one_left q2.le ht))
      iter 1 mu junk.d2f (fun j _ _ => ⟨ratio_pow_ne _, ratio_pow_le _, by rw [abs_neg]; exact ratio_pow_le _⟩) (fun t => hmv _ t (fun k a _ => h3 k a))
    rw [e]
    dsimp only
    rw [extrap_const hit (v := -(2 + 2 * H i j * (s1 * s2))) (fun k j1 j2 => by
      rw [hdd k j1 (by omega), ← hs i j hi.1 hi.2 hj.1 hj.2]
      have := ratio_pow_ne (iter - k)
      rw [div_eq_iff (pow_ne_zero _ this)]
      linear_combination (-(ratio ^ (iter - k)) ^ 2) * (e1 + e2))]
    dsimp only
    have hv : -(1 / 2) * (-(2 + 2 * H i j * (s1 * s2)) + 2) / (s1 * s2) = H i j := by field_simp; ring
    rw [hv, abs_zero, mul_zero, zero_div]
    apply ih (j + 1) _ _ (by omega) (by omega)
    · intro k hk
      by_cases hkj : k = j
      · subst hkj; rw [put_self]
      · rw [put_ne _ _ hkj]
        rcases hmu with rfl | ⟨t, rfl⟩
        · exact h3 k hk
        · rw [put_ne _ _ hkj, put_ne _ _ hk]
    · intro a b a1 a2 b1 b2 hab
      dsimp only
      by_cases t1 : a = j ∧ b = i
      · rw [t1.1, t1.2, put2_self, put2_self]; exact ⟨hs i j hi.1 hi.2 hj.1 hj.2, rfl⟩
      · rw [put2_ne _ _ t1, put2_ne _ _ t1]
        by_cases t2 : a = i ∧ b = j
        · rw [t2.1, t2.2, put2_self, put2_self]; exact ⟨rfl, rfl⟩
        · rw [put2_ne _ _ t2, put2_ne _ _ t2]
          exact h a b a1 a2 b1 b2 (by omega)

theorem pairs_quad (hq : Near lf n c H mle dp) (hs : ∀ a b, 1 ≤ a → a ≤ n → 1 ≤ b → b ≤ n → H a b = H b a) (hp : ∀ a, 1 ≤ a → a ≤ n → 0 < H a a) {iter : ℕ} (hit : 1 ≤ iter) (junk : Junk) :
    ∀ (cnt i : ℕ) (s : Info), 1 ≤ i → i + cnt = n ∨ n = 0 ∧ cnt = 0 →
    (∀ a b, 1 ≤ a → a ≤ n → 1 ≤ b → b ≤ n → (a = b ∨ a < i ∨ b < i) → s.info a b = H a b ∧ s.ierr a b = 0) →
    ∃ s', pairs lf c n iter junk cnt i mle s = (mle, .ok s') ∧ ∀ a b, 1 ≤ a → a ≤ n → 1 ≤ b → b ≤ n → s'.info a b = H a b ∧ s'.ierr a b = 0 := by
  intro cnt
  induction cnt with
  | zero => exact fun i s h1 h2 h => ⟨s, rfl, fun a b a1 a2 b1 b2 => h a b a1 a2 b1 b2 (by omega)⟩
  | succ cnt ih =>
    intro i s h1 h2 h
    have hi : 1 ≤ i ∧ i ≤ n := by omega
    rw [pairs]
    rw [(h i i hi.1 hi.2 hi.1 hi.2 (Or.inl rfl)).1, if_neg (not_le.2 (hp i hi.1 hi.2))]
    obtain ⟨mu', s', e, hmu, hs'⟩ := mixed_quad hq hs hp hit junk hi (n - i) (i + 1) mle s (by omega) (by omega) (fun _ _ => rfl) (fun a b a1 a2 b1 b2 hab => h a b a1 a2 b1 b2 (by omega))
    rw [e]
    dsimp only
    rw [put_restore _ _ _ _ hmu rfl]
    exact ih (i + 1) s' (by omega) (by omega) (fun a b a1 a2 b1 b2 hab => hs' a b a1 a2 b1 b2 (by omega))

end quadratic

/-- C70.  For a log likelihood that is quadratic about its mode, with any symmetric Hessian of negative diagonal entries, in any dimension, `obsinfo` returns minus the Hessian, with errors zero, for any
nonzero steps and any number of extrapolations, whether or not the maximum is given; and the mode array is as before.  It suffices that it is quadratic where every coordinate is within its step or its
standard deviation of the mode: elsewhere it may be anything, or raise. -/
theorem C70_quadratic {lf : LogF} {n : ℕ} {c : ℝ} {H : ℕ → ℕ → ℝ} {mle deltas : Vec}
    (hq : ∀ x : Vec, (∀ k, 1 ≤ k → k ≤ n → |x k - mle k| ≤ max |deltas k| (1 / √(H k k))) → lf x = .ok (quad n c H mle x))
    (hs : ∀ a b, 1 ≤ a → a ≤ n → 1 ≤ b → b ≤ n → H a b = H b a) (hp : ∀ a, 1 ≤ a → a ≤ n → 0 < H a a)
    (hd : ∀ i, 1 ≤ i → i ≤ n → deltas i ≠ 0) (niter : ℕ) (junk : Junk) {maxll : Option ℝ} (hm : maxll = none ∨ maxll = some c) :
    ∃ s, obsinfo lf n mle deltas maxll niter junk = (mle, .ok s) ∧
      ∀ i j, 1 ≤ i → i ≤ n → 1 ≤ j → j ≤ n → s.info i j = H i j ∧ s.ierr i j = 0 := by
  have e : maxll.elim (lf mle) Except.ok = .ok c := by
    rcases hm with rfl | rfl
    · rw [Option.elim_none, hq mle (fun k _ _ => by rw [sub_self, abs_zero]; exact le_max_of_le_left (abs_nonneg _))]; simp [quad]
    · rfl
  rw [obsinfo, e]
  dsimp only
  rw [ninfol]
  obtain ⟨s, h1, h2⟩ := diag_quad hq hd (iter := niter + 1) (by omega) junk n 1 ⟨fun _ _ => 0, fun _ _ => 0⟩ le_rfl (by omega) (fun k a b => by omega)
  rw [h1]
  dsimp only
  exact pairs_quad hq hs hp (by omega) junk (n - 1) 1 s le_rfl (by omega) (fun a b a1 a2 b1 b2 hab => by
    have : a = b := by omega
    subst this; exact h2 a a1 a2)

/-- C70.  For every log likelihood: when `obsinfo` returns, both matrices are symmetric and the mode array is as before. -/
theorem C70_symmetric {lf : LogF} {n : ℕ} {mle deltas : Vec} {maxll : Option ℝ} {niter : ℕ} {junk : Junk} {mu : Vec} {s : Info} (h : obsinfo lf n mle deltas maxll niter junk = (mu, .ok s)) :
    mu = mle ∧ ∀ i j, s.info i j = s.info j i ∧ s.ierr i j = s.ierr j i := ⟨(obsinfo_ok h).1, (obsinfo_ok h).2.1⟩

example (junk : Junk) : ∃ s, obsinfo (fun x => .ok (quad 2 5 (fun a b => if a = b then 2 else 1) (fun _ => 3) x)) 2 (fun _ => 3) (fun _ => 1 / 10) none 2 junk = (fun _ => 3, .ok s) ∧ s.info 1 2 = 1 := by
  obtain ⟨s, h1, h2⟩ := C70_quadratic (n := 2) (c := 5) (H := fun a b => if a = b then 2 else 1) (mle := fun _ => 3) (deltas := fun _ => 1 / 10) (fun _ _ => rfl)
    (fun a b _ _ _ _ => by simp only [eq_comm]) (fun a _ _ => by simp) (fun i _ _ => by norm_num) 2 junk (Or.inl rfl)
  exact ⟨s, h1, by rw [(h2 1 2 le_rfl (by omega) (by omega) le_rfl).1]; simp⟩

/-! ## C71: extrapolation for polynomials -/

/-- Along the axis of parameter `k` through `mle`, the log likelihood is the polynomial with the coefficients `q m`, `m < K`. -/
def axis (lf : LogF) (mle : Vec) (k K : ℕ) (q : ℕ → ℝ) : Prop := ∀ t, lf (put mle k (mle k + t)) = .ok (∑ m ∈ range K, q m * t ^ m)

/-- Second differences of a polynomial of degree at most `2 k + 3`. -/
theorem even_part (q : ℕ → ℝ) (k : ℕ) {t : ℝ} (ht : t ≠ 0) :
    ((∑ m ∈ range (2 * k + 4), q m * t ^ m) + (∑ m ∈ range (2 * k + 4), q m * (-t) ^ m) - 2 * q 0) / t ^ 2 = ∑ m ∈ range (k + 1), 2 * q (2 * m + 2) * (t ^ 2) ^ m := by
  rw [div_eq_iff (pow_ne_zero _ ht)]
  induction k with
  | zero =>
    simp [sum_range_succ]
    ring
  | succ k ih =>
    rw [show 2 * (k + 1) + 4 = 2 * k + 4 + 1 + 1 by ring, sum_range_succ, sum_range_succ, sum_range_succ (n := 2 * k + 4 + 1), sum_range_succ (n := 2 * k + 4), sum_range_succ (n := k + 1), add_mul, ← ih]
    have e1 : (-t) ^ (2 * k + 4) = t ^ (2 * k + 4) := by rw [show 2 * k + 4 = 2 * (k + 2) by ring, pow_mul, pow_mul, neg_sq]
    have e2 : (-t) ^ (2 * k + 4 + 1) = -t ^ (2 * k + 4 + 1) := by rw [pow_succ, e1]; ring
    rw [e1, e2, show 2 * (k + 1) + 2 = 2 * k + 4 by ring]
    ring

/-- The differences that `obsinfo` extrapolates. -/
theorem diffs_axis {lf : LogF} {n : ℕ} {mle deltas : Vec} {maxll : Option ℝ} {niter : ℕ} {junk : Junk} {mu : Vec} {s : Info} (h : obsinfo lf n mle deltas maxll niter junk = (mu, .ok s))
    {k : ℕ} (k1 : 1 ≤ k) (k2 : k ≤ n) (hdp : deltas k ≠ 0) {F : ℝ → ℝ} (hF : ∀ t, lf (put mle k (mle k + t)) = .ok (F t)) (hm : maxll = none ∨ maxll = some (F 0)) :
    ∃ d : Vec, (∀ j, 1 ≤ j → j ≤ niter + 1 → d j = (F (deltas k * ratio ^ (niter + 1 - j)) + F (-(deltas k * ratio ^ (niter + 1 - j))) - 2 * F 0) / (deltas k * ratio ^ (niter + 1 - j)) ^ 2) ∧
      s.info k k = -(extrap (niter + 1) d junk.rid).1 ∧ s.ierr k k = |(extrap (niter + 1) d junk.rid).2| := by
  obtain ⟨-, -, m, hm', hk⟩ := obsinfo_ok h
  have e0 : lf mle = .ok (F 0) := by
    have := hF 0
    rwa [add_zero, put_get] at this
  have em : m = F 0 := by
    rcases hm with rfl | rfl
    · simp only [Option.elim, e0, Except.ok.injEq] at hm'; exact hm'.symm
    · simp only [Option.elim, Except.ok.injEq] at hm'; exact hm'.symm
  subst em
  obtain ⟨mu1, d, hd, h1, h2⟩ := hk k k1 k2
  refine ⟨d, ?_, h1, h2⟩
  have hh : ∀ j, deltas k * ratio ^ (niter + 1 - j) ≠ 0 := fun j => mul_ne_zero hdp (ratio_pow_ne _)
  obtain ⟨mu', d', e, -, hdd, -⟩ := diffs_spec (lf := lf) (lfmax := F 0) (move := fun t x => put x k (mle k + t)) (h := fun j => deltas k * ratio ^ (niter + 1 - j))
    (P := fun t => put mle k (mle k + t)) (F := F) (fun s t => put_put _ _ _ _) hF (niter + 1) 1 mle junk.d2f (fun j _ _ => hh j) (fun t => rfl)
  rw [e] at hd
  simp only [Prod.mk.injEq, Except.ok.injEq] at hd
  obtain ⟨-, rfl⟩ := hd
  intro j j1 j2
  exact hdd j j1 (by omega)

/-- The differences that `obsinfo` extrapolates for a polynomial. -/
theorem poly_diffs {lf : LogF} {n : ℕ} {mle deltas : Vec} {maxll : Option ℝ} {niter : ℕ} {junk : Junk} {mu : Vec} {s : Info} (h : obsinfo lf n mle deltas maxll niter junk = (mu, .ok s))
    {k : ℕ} (k1 : 1 ≤ k) (k2 : k ≤ n) (hdp : deltas k ≠ 0) {K : ℕ} {q : ℕ → ℝ} (hq : axis lf mle k (2 * K + 4) q) (hm : maxll = none ∨ maxll = some (q 0)) :
    ∃ d : Vec, (∀ j, 1 ≤ j → j ≤ niter + 1 → d j = ∑ m ∈ range (K + 1), 2 * q (2 * m + 2) * ((deltas k * ratio ^ (niter + 1 - j)) ^ 2) ^ m) ∧
      s.info k k = -(extrap (niter + 1) d junk.rid).1 ∧ s.ierr k k = |(extrap (niter + 1) d junk.rid).2| := by
  have e0 : ∑ m ∈ range (2 * K + 4), q m * (0 : ℝ) ^ m = q 0 := by rw [show 2 * K + 4 = 2 * K + 3 + 1 by ring, sum_range_succ']; simp
  obtain ⟨d, hd, h1, h2⟩ := diffs_axis (F := fun t => ∑ m ∈ range (2 * K + 4), q m * t ^ m) h k1 k2 hdp hq (by rw [e0]; exact hm)
  refine ⟨d, ?_, h1, h2⟩
  intro j j1 j2
  rw [hd j j1 j2, e0, even_part q K (mul_ne_zero hdp (ratio_pow_ne _))]

/-- C71.  Without extrapolation (`niter` zero) the diagonal entry is exact for polynomials of degree three. -/
theorem C71_plain {lf : LogF} {n : ℕ} {mle deltas : Vec} {maxll : Option ℝ} {junk : Junk} {mu : Vec} {s : Info} (h : obsinfo lf n mle deltas maxll 0 junk = (mu, .ok s))
    {k : ℕ} (k1 : 1 ≤ k) (k2 : k ≤ n) (hdp : deltas k ≠ 0) {q : ℕ → ℝ} (hq : axis lf mle k 4 q) (hm : maxll = none ∨ maxll = some (q 0)) :
    s.info k k = -(2 * q 2) ∧ s.ierr k k = 0 := by
  obtain ⟨d, hd, h1, h2⟩ := poly_diffs (K := 0) h k1 k2 hdp hq hm
  have : d 1 = 2 * q 2 := by rw [hd 1 le_rfl le_rfl]; simp
  rw [h1, h2]
  simp [extrap, this]

theorem steps_ratio (h : ℝ) {i : ℕ} (hi : 2 ≤ i) : (h * ratio ^ (i - 1 - 1)) ^ 2 = 1 / ratio * (1 / ratio) * (h * ratio ^ (i - 1)) ^ 2 := by
  obtain ⟨q, rfl⟩ : ∃ q, i = q + 2 := ⟨i - 2, by omega⟩
  rw [show q + 2 - 1 - 1 = q by omega, show q + 2 - 1 = q + 1 by omega]
  have : ratio ≠ 0 := by norm_num [ratio]
  field_simp
  rw [pow_succ]
  ring

theorem con_gt : (1 : ℝ) < 1 / ratio * (1 / ratio) := by norm_num [ratio]

/-- C71.  With one extrapolation the diagonal entry is exact for polynomials of degree five, unless the error it finds, twice the fourth coefficient times the square of the step, exceeds 10^30. -/
theorem C71_one {lf : LogF} {n : ℕ} {mle deltas : Vec} {maxll : Option ℝ} {junk : Junk} {mu : Vec} {s : Info} (h : obsinfo lf n mle deltas maxll 1 junk = (mu, .ok s))
    {k : ℕ} (k1 : 1 ≤ k) (k2 : k ≤ n) (hdp : deltas k ≠ 0) {q : ℕ → ℝ} (hq : axis lf mle k 6 q) (hm : maxll = none ∨ maxll = some (q 0)) (hb : 2 * |q 4| * deltas k ^ 2 ≤ 10 ^ 30) :
    s.info k k = -(2 * q 2) ∧ s.ierr k k = 2 * |q 4| * deltas k ^ 2 := by
  obtain ⟨d, hd, h1, h2⟩ := poly_diffs (K := 1) h k1 k2 hdp hq hm
  obtain ⟨m, m1, m2, hs⟩ := ridEx_spec ratio d (n := 2) le_rfl junk.rid
  have em : m = 2 := by omega
  subst em
  have hy : ∀ i, 1 ≤ i → i ≤ 2 → d (2 - i + 1) = ∑ m ∈ range (1 + 1), 2 * q (2 * m + 2) * ((deltas k * ratio ^ (i - 1)) ^ 2) ^ m := by
    intro i a b
    rw [hd _ (by omega) (by omega), show 1 + 1 - (2 - i + 1) = i - 1 by omega]
  have t22 : tab (1 / ratio * (1 / ratio)) d 2 2 2 = 2 * q 2 := tab_exact con_gt (k := 1) (p := fun m => 2 * q (2 * m + 2)) (x := fun i => (deltas k * ratio ^ (i - 1)) ^ 2) (fun i hi => steps_ratio _ hi) hy (by omega) le_rfl le_rfl
  have t11 : tab (1 / ratio * (1 / ratio)) d 2 1 1 = 2 * q 2 + 2 * q 4 * deltas k ^ 2 := by
    rw [tab, hy 1 le_rfl (by omega)]; simp [sum_range_succ]
  have t12 : tab (1 / ratio * (1 / ratio)) d 2 1 2 = 2 * q 2 + 2 * q 4 * (deltas k ^ 2 * ratio ^ 2) := by
    rw [tab, hy 2 (by omega) le_rfl]; simp [sum_range_succ, mul_pow]
  have et : terr (1 / ratio * (1 / ratio)) d 2 2 2 = 2 * |q 4| * deltas k ^ 2 := by
    unfold terr
    simp only [show (2 : ℕ) - 1 = 1 from rfl]
    rw [t22, t11, t12]
    have a1 : |2 * q 2 - (2 * q 2 + 2 * q 4 * (deltas k ^ 2 * ratio ^ 2))| = 2 * |q 4| * deltas k ^ 2 * ratio ^ 2 := by
      rw [show 2 * q 2 - (2 * q 2 + 2 * q 4 * (deltas k ^ 2 * ratio ^ 2)) = -(2 * q 4 * (deltas k ^ 2 * ratio ^ 2)) by ring, abs_neg, abs_mul, abs_mul, abs_of_nonneg (show (0 : ℝ) ≤ deltas k ^ 2 * ratio ^ 2 by positivity), abs_of_pos (show (0 : ℝ) < 2 by norm_num)]; ring
    have a2 : |2 * q 2 - (2 * q 2 + 2 * q 4 * deltas k ^ 2)| = 2 * |q 4| * deltas k ^ 2 := by
      rw [show 2 * q 2 - (2 * q 2 + 2 * q 4 * deltas k ^ 2) = -(2 * q 4 * deltas k ^ 2) by ring, abs_neg, abs_mul, abs_mul, abs_of_nonneg (show (0 : ℝ) ≤ deltas k ^ 2 by positivity), abs_of_pos (show (0 : ℝ) < 2 by norm_num)]
    rw [a1, a2, max_eq_right]
    have : (0 : ℝ) ≤ 2 * |q 4| * deltas k ^ 2 := by positivity
    have hr : ratio ^ 2 ≤ 1 := by norm_num [ratio]
    nlinarith
  have hx : (ridEx ratio d 2 junk.rid).result = 2 * q 2 ∧ (ridEx ratio d 2 junk.rid).err = 2 * |q 4| * deltas k ^ 2 := by
    rcases hs.res with ⟨-, -, r3⟩ | ⟨i', j', a1, a2, a3, a4, a5, a6⟩
    · have := r3 2 2 le_rfl le_rfl le_rfl
      rw [et] at this; linarith
    · have : i' = 2 ∧ j' = 2 := by omega
      rw [a4, a5, this.1, this.2, t22, et]; exact ⟨rfl, rfl⟩
  rw [h1, h2]
  simp only [extrap]
  rw [if_pos (by omega)]
  dsimp only
  rw [hx.1, hx.2, abs_of_nonneg (by positivity)]
  exact ⟨rfl, rfl⟩

/-- C71.  For any number of extrapolations: all entries of the table of extrapolations in rows above the degree in the square of the step are the exact second derivative. -/
theorem C71_table {y : Vec} {n k : ℕ} {p : ℕ → ℝ} {h : ℝ} (hy : ∀ i, 1 ≤ i → i ≤ n → y (n - i + 1) = ∑ m ∈ range (k + 1), p m * ((h * ratio ^ (i - 1)) ^ 2) ^ m)
    {j i : ℕ} (hj : k < j) (h1 : j ≤ i) (h2 : i ≤ n) : tab (1 / ratio * (1 / ratio)) y n j i = p 0 :=
  tab_exact con_gt (x := fun i => (h * ratio ^ (i - 1)) ^ 2) (fun _ hi => steps_ratio _ hi) hy hj h1 h2

/-- C71.  For every log likelihood, and at least one extrapolation: the diagonal entry is minus an entry of the table of extrapolations of the second differences (or the error of every entry
exceeds 10^30), and the error reported is the least of the errors of the columns used. -/
theorem C71_entry {lf : LogF} {n : ℕ} {mle deltas : Vec} {maxll : Option ℝ} {niter : ℕ} {junk : Junk} {mu : Vec} {s : Info} (h : obsinfo lf n mle deltas maxll (niter + 1) junk = (mu, .ok s))
    {k : ℕ} (k1 : 1 ≤ k) (k2 : k ≤ n) (hdp : deltas k ≠ 0) {F : ℝ → ℝ} (hF : ∀ t, lf (put mle k (mle k + t)) = .ok (F t)) (hm : maxll = none ∨ maxll = some (F 0)) :
    ∃ (d : Vec) (m : ℕ), (∀ j, 1 ≤ j → j ≤ niter + 2 → d j = (F (deltas k * ratio ^ (niter + 2 - j)) + F (-(deltas k * ratio ^ (niter + 2 - j))) - 2 * F 0) / (deltas k * ratio ^ (niter + 2 - j)) ^ 2) ∧
      2 ≤ m ∧ m ≤ niter + 2 ∧
      (∀ i j, 2 ≤ j → j ≤ i → i ≤ m → s.ierr k k ≤ terr (1 / ratio * (1 / ratio)) d (niter + 2) j i) ∧
      ((∀ i j, 2 ≤ j → j ≤ i → i ≤ m → 10 ^ 30 < terr (1 / ratio * (1 / ratio)) d (niter + 2) j i) ∨
        ∃ i j, 2 ≤ j ∧ j ≤ i ∧ i ≤ m ∧ s.info k k = -tab (1 / ratio * (1 / ratio)) d (niter + 2) j i ∧ s.ierr k k = terr (1 / ratio * (1 / ratio)) d (niter + 2) j i) := by
  obtain ⟨d, hd, h1, h2⟩ := diffs_axis h k1 k2 hdp hF hm
  obtain ⟨m, m1, m2, hs⟩ := ridEx_spec ratio d (n := niter + 2) (by omega) junk.rid
  have e : extrap (niter + 1 + 1) d junk.rid = ((ridEx ratio d (niter + 2) junk.rid).result, (ridEx ratio d (niter + 2) junk.rid).err) := by
    unfold extrap; rw [if_pos (by omega)]
  rw [e] at h1 h2
  dsimp only at h1 h2
  have hpos : ∀ i j, 0 ≤ terr (1 / ratio * (1 / ratio)) d (niter + 2) j i := fun i j => le_max_of_le_left (abs_nonneg _)
  have h0 : 0 ≤ (ridEx ratio d (niter + 2) junk.rid).err := by
    rcases hs.res with ⟨r1, -, -⟩ | ⟨i', j', a1, a2, a3, a4, a5, a6⟩
    · rw [r1]; positivity
    · rw [a5]; exact hpos _ _
  rw [abs_of_nonneg h0] at h2
  refine ⟨d, m, hd, m1, m2, fun i j a b c => by rw [h2]; exact hs.min i j a b c, ?_⟩
  rcases hs.res with ⟨-, -, r3⟩ | ⟨i', j', a1, a2, a3, a4, a5, a6⟩
  · exact Or.inl r3
  · exact Or.inr ⟨i', j', a1, a2, a3, by rw [h1, a4], by rw [h2, a5]⟩

/-- C71 (partial).  For a polynomial of degree at most `2 K + 3` and at least `K + 1` extrapolations, the diagonal entry is exact and the error zero, provided the iteration does not stop before column
`K + 2`: for no earlier column is the change of the diagonal of the table at least twice the least error so far.
Missing: without the proviso the claim is false (`C71_violated`). -/
theorem C71_many_partial {lf : LogF} {n : ℕ} {mle deltas : Vec} {maxll : Option ℝ} {niter : ℕ} {junk : Junk} {mu : Vec} {s : Info} (h : obsinfo lf n mle deltas maxll niter junk = (mu, .ok s))
    {k : ℕ} (k1 : 1 ≤ k) (k2 : k ≤ n) (hdp : deltas k ≠ 0) {K : ℕ} {q : ℕ → ℝ} (hq : axis lf mle k (2 * K + 4) q) (hm : maxll = none ∨ maxll = some (q 0)) (hK : K + 1 ≤ niter)
    (hgo : ∀ d : Vec, (∀ i, 1 ≤ i → i ≤ niter + 1 → d (niter + 1 - i + 1) = ∑ m ∈ range (K + 1), 2 * q (2 * m + 2) * ((deltas k * ratio ^ (i - 1)) ^ 2) ^ m) →
      ∀ c, 2 ≤ c → c ≤ K + 1 → (∃ i j, 2 ≤ j ∧ j ≤ i ∧ i ≤ c ∧ terr (1 / ratio * (1 / ratio)) d (niter + 1) j i ≤ 10 ^ 30) ∧ ∀ i j, 2 ≤ j → j ≤ i → i ≤ c →
        |tab (1 / ratio * (1 / ratio)) d (niter + 1) c c - tab (1 / ratio * (1 / ratio)) d (niter + 1) (c - 1) (c - 1)| < 2 * terr (1 / ratio * (1 / ratio)) d (niter + 1) j i) :
    s.info k k = -(2 * q 2) ∧ s.ierr k k = 0 := by
  obtain ⟨d, hd, h1, h2⟩ := poly_diffs h k1 k2 hdp hq hm
  have hy : ∀ i, 1 ≤ i → i ≤ niter + 1 → d (niter + 1 - i + 1) = ∑ m ∈ range (K + 1), 2 * q (2 * m + 2) * ((deltas k * ratio ^ (i - 1)) ^ 2) ^ m := by
    intro i a b
    rw [hd _ (by omega) (by omega), show niter + 1 - (niter + 1 - i + 1) = i - 1 by omega]
  have hex : ∀ j i, K < j → j ≤ i → i ≤ niter + 1 → tab (1 / ratio * (1 / ratio)) d (niter + 1) j i = 2 * q 2 := fun j i a b c => C71_table (p := fun m => 2 * q (2 * m + 2)) hy a b c
  obtain ⟨m, m1, m2, hs⟩ := ridEx_spec ratio d (n := niter + 1) (by omega) junk.rid
  have hmK : K + 2 ≤ m := by
    by_contra hlt
    rcases hs.stop with hst | hst
    · omega
    · obtain ⟨⟨i0, j0, b1, b2, b3, b4⟩, g⟩ := hgo d hy m m1 (by omega)
      rcases hs.res with ⟨-, -, r3⟩ | ⟨i', j', a1, a2, a3, a4, a5, a6⟩
      · have := r3 i0 j0 b1 b2 b3; linarith
      · have := g i' j' a1 a2 a3
        rw [← a5] at this; linarith
  have he : terr (1 / ratio * (1 / ratio)) d (niter + 1) (K + 2) (K + 2) = 0 := by
    unfold terr
    simp only [show K + 2 - 1 = K + 1 by omega]
    rw [hex (K + 2) (K + 2) (by omega) le_rfl (by omega), hex (K + 1) (K + 2) (by omega) (by omega) (by omega), hex (K + 1) (K + 1) (by omega) le_rfl (by omega)]
    simp
  have hm0 : (ridEx ratio d (niter + 1) junk.rid).err ≤ 0 := by rw [← he]; exact hs.min _ _ (by omega) le_rfl hmK
  have hmm : terr (1 / ratio * (1 / ratio)) d (niter + 1) m m = 0 := by
    unfold terr
    rw [hex m m (by omega) le_rfl (by omega), hex (m - 1) m (by omega) (by omega) (by omega), hex (m - 1) (m - 1) (by omega) le_rfl (by omega)]
    simp
  have hx : (ridEx ratio d (niter + 1) junk.rid).result = 2 * q 2 ∧ (ridEx ratio d (niter + 1) junk.rid).err = 0 := by
    rcases hs.res with ⟨r1, -, -⟩ | ⟨i', j', a1, a2, a3, a4, a5, a6⟩
    · rw [r1] at hm0; norm_num at hm0
    · have h0 : 0 ≤ (ridEx ratio d (niter + 1) junk.rid).err := by rw [a5]; exact le_max_of_le_left (abs_nonneg _)
      have e0 := le_antisymm hm0 h0
      refine ⟨?_, e0⟩
      have : i' = m ∧ j' = m := by
        by_contra hne
        have := a6 m m (by omega) le_rfl le_rfl (by omega)
        rw [hmm, e0] at this
        exact lt_irrefl _ this
      rw [a4, this.1, this.2, hex m m (by omega) le_rfl (by omega)]
  rw [h1, h2]
  simp only [extrap]
  rw [if_pos (by omega)]
  dsimp only
  rw [hx.1, hx.2, abs_zero]
  exact ⟨rfl, rfl⟩

/-- C71.  For polynomials of degree five the diagonal entry is exact for every number of extrapolations from one on, unless twice the fourth coefficient times the square of the step exceeds 10^30. -/
theorem C71_quintic {lf : LogF} {n : ℕ} {mle deltas : Vec} {maxll : Option ℝ} {niter : ℕ} {junk : Junk} {mu : Vec} {s : Info} (h : obsinfo lf n mle deltas maxll niter junk = (mu, .ok s)) (hn : 1 ≤ niter)
    {k : ℕ} (k1 : 1 ≤ k) (k2 : k ≤ n) (hdp : deltas k ≠ 0) {q : ℕ → ℝ} (hq : axis lf mle k 6 q) (hm : maxll = none ∨ maxll = some (q 0)) (hb : 2 * |q 4| * deltas k ^ 2 ≤ 10 ^ 30) :
    s.info k k = -(2 * q 2) := by
  by_cases h1 : niter = 1
  · subst h1
    exact (C71_one h k1 k2 hdp hq hm hb).1
  by_cases h4 : q 4 = 0
  · obtain ⟨d, hd, e1, -⟩ := poly_diffs (K := 1) h k1 k2 hdp hq hm
    rw [e1, extrap_const (by omega) (v := 2 * q 2) (fun j j1 j2 => by rw [hd j j1 j2]; simp [sum_range_succ, h4])]
  · refine (C71_many_partial (K := 1) h k1 k2 hdp hq hm (by omega) ?_).1
    intro d hy c c1 c2
    have hc : c = 2 := by omega
    subst hc
    have t22 : tab (1 / ratio * (1 / ratio)) d (niter + 1) 2 2 = 2 * q 2 := C71_table (p := fun m => 2 * q (2 * m + 2)) hy (by omega) le_rfl (by omega)
    have t11 : tab (1 / ratio * (1 / ratio)) d (niter + 1) 1 1 = 2 * q 2 + 2 * q 4 * deltas k ^ 2 := by
      rw [tab, hy 1 le_rfl (by omega)]; simp [sum_range_succ]
    have t12 : tab (1 / ratio * (1 / ratio)) d (niter + 1) 1 2 = 2 * q 2 + 2 * q 4 * (deltas k ^ 2 * ratio ^ 2) := by
      rw [tab, hy 2 (by omega) (by omega)]; simp [sum_range_succ, mul_pow]
    have a1 : |2 * q 2 - (2 * q 2 + 2 * q 4 * (deltas k ^ 2 * ratio ^ 2))| = 2 * |q 4| * deltas k ^ 2 * ratio ^ 2 := by
      rw [show 2 * q 2 - (2 * q 2 + 2 * q 4 * (deltas k ^ 2 * ratio ^ 2)) = -(2 * q 4 * (deltas k ^ 2 * ratio ^ 2)) by ring, abs_neg, abs_mul, abs_mul, abs_of_nonneg (show (0 : ℝ) ≤ deltas k ^ 2 * ratio ^ 2 by positivity), abs_of_pos (show (0 : ℝ) < 2 by norm_num)]; ring
    have a2 : |2 * q 2 - (2 * q 2 + 2 * q 4 * deltas k ^ 2)| = 2 * |q 4| * deltas k ^ 2 := by
      rw [show 2 * q 2 - (2 * q 2 + 2 * q 4 * deltas k ^ 2) = -(2 * q 4 * deltas k ^ 2) by ring, abs_neg, abs_mul, abs_mul, abs_of_nonneg (show (0 : ℝ) ≤ deltas k ^ 2 by positivity), abs_of_pos (show (0 : ℝ) < 2 by norm_num)]
    have hpos : 0 < 2 * |q 4| * deltas k ^ 2 := by
      have := abs_pos.2 h4
      positivity
    have hr : ratio ^ 2 ≤ 1 := by norm_num [ratio]
    refine ⟨⟨2, 2, le_rfl, le_rfl, le_rfl, ?_⟩, ?_⟩
    · unfold terr
      simp only [show (2 : ℕ) - 1 = 1 from rfl]
      rw [t22, t11, t12, a1, a2]
      refine max_le ?_ hb
      nlinarith
    · intro i j b1 b2 b3
      have : i = 2 ∧ j = 2 := by omega
      rw [this.1, this.2]
      unfold terr
      simp only [show (2 : ℕ) - 1 = 1 from rfl]
      rw [t22, t11, t12, a1, a2]
      have := le_max_right (2 * |q 4| * deltas k ^ 2 * ratio ^ 2) (2 * |q 4| * deltas k ^ 2)
      linarith

/-- The log likelihood of the counterexample: a polynomial of degree six, even, with a strict local maximum at zero and second derivative minus `ratio ^ 2` there. -/
noncomputable def sextic (t : ℝ) : ℝ := -(1 / 2) * t ^ 2 * (t ^ 2 - 1) * (t ^ 2 - ratio ^ 2)

/-- C71 is false of the code.  For the even polynomial `sextic`, whose observed information at zero is `ratio ^ 2`, about one half, `obsinfo` with the step one returns the information zero with the error zero,
for every number of extrapolations from one on: its table has three zeros, and it stops there. -/
theorem C71_violated (niter : ℕ) (hn : 1 ≤ niter) (junk : Junk) :
    ∃ s, obsinfo (fun x => .ok (sextic (x 1))) 1 (fun _ => 0) (fun _ => 1) none niter junk = (fun _ => 0, .ok s) ∧ s.info 1 1 = 0 ∧ s.ierr 1 1 = 0 ∧
      ∀ t, sextic t = -(1 / 2) * ratio ^ 2 * t ^ 2 + 1 / 2 * (1 + ratio ^ 2) * t ^ 4 - 1 / 2 * t ^ 6 := by
  have hF : ∀ t : ℝ, (fun x => .ok (sextic (x 1)) : LogF) (put (fun _ => 0) 1 (0 + t)) = .ok (sextic t) := fun t => by simp
  have hh : ∀ j, (1 : ℝ) * ratio ^ (niter + 1 - j) ≠ 0 := fun j => mul_ne_zero one_ne_zero (ratio_pow_ne _)
  obtain ⟨mu', d, e, hmu, hdd, -⟩ := diffs_spec (lf := fun x => .ok (sextic (x 1))) (lfmax := 0) (move := fun t x => put x 1 (0 + t)) (h := fun j => 1 * ratio ^ (niter + 1 - j))
    (P := fun t => put (fun _ => 0) 1 (0 + t)) (F := sextic) (fun s t => put_put _ _ _ _) hF (niter + 1) 1 (fun _ => 0) junk.d2f (fun j _ _ => hh j) (fun t => rfl)
  have d1 : d (niter + 1) = 0 := by
    rw [hdd _ (by omega) (by omega)]; simp [sextic]
  have d2 : d (niter + 1 - 2 + 1) = 0 := by
    rw [hdd _ (by omega) (by omega), show niter + 1 - (niter + 1 - 2 + 1) = 1 by omega]; simp [sextic]
  have t11 : tab (1 / ratio * (1 / ratio)) d (niter + 1) 1 1 = 0 := by rw [tab]; simpa using d1
  have t12 : tab (1 / ratio * (1 / ratio)) d (niter + 1) 1 2 = 0 := by rw [tab]; exact d2
  have t22 : tab (1 / ratio * (1 / ratio)) d (niter + 1) 2 2 = 0 := by rw [tab]; simp only [show (2 : ℕ) - 1 = 1 from rfl, zero_add]; rw [t11, t12]; simp
  have hx : extrap (niter + 1) d junk.rid = (0, 0) := by
    obtain ⟨m, m1, m2, hs⟩ := ridEx_spec ratio d (n := niter + 1) (by omega) junk.rid
    have et : terr (1 / ratio * (1 / ratio)) d (niter + 1) 2 2 = 0 := by
      unfold terr; simp only [show (2 : ℕ) - 1 = 1 from rfl]; rw [t22, t11, t12]; simp
    have hm2 : m = 2 := by
      by_contra hne
      obtain ⟨e, -, e1, e2⟩ := hs.go 2 le_rfl (by omega)
      have := e2 2 2 le_rfl le_rfl le_rfl
      rw [et] at this
      simp only [show (2 : ℕ) - 1 = 1 from rfl] at e1
      rw [t22, t11] at e1
      simp at e1
      linarith
    subst hm2
    unfold extrap
    rw [if_pos (by omega)]
    rcases hs.res with ⟨-, -, r3⟩ | ⟨i', j', a1, a2, a3, a4, a5, a6⟩
    · have := r3 2 2 le_rfl le_rfl le_rfl
      rw [et] at this; norm_num at this
    · have : i' = 2 ∧ j' = 2 := by omega
      rw [a4, a5, this.1, this.2, t22, et]
  have hmu' : put mu' 1 0 = fun _ => 0 := by
    rcases hmu with rfl | ⟨t, rfl⟩
    · exact put_get (fun _ => 0) 1
    · rw [put_put]; exact put_get (fun _ => 0) 1
  refine ⟨⟨put2 (fun _ _ => 0) 1 1 (-0), put2 (fun _ _ => 0) 1 1 |0|⟩, ?_, by simp, by simp, fun t => by unfold sextic; ring⟩
  have e0 : (none : Option ℝ).elim ((fun x => .ok (sextic (x 1)) : LogF) fun _ => 0) .ok = .ok 0 := by simp [sextic]
  rw [obsinfo, e0]
  dsimp only
  rw [ninfol, diag]
  dsimp only
  rw [e]
  dsimp only
  rw [hx, hmu']
  rfl

example (junk : Junk) : ∃ s, obsinfo (fun x => .ok (-(x 1) ^ 2 + 3 * x 1 ^ 3 - x 1 ^ 4)) 1 (fun _ => 0) (fun _ => 1 / 10) none 3 junk = (fun _ => 0, .ok s) ∧ s.info 1 1 = 2 := by
  have hq : axis (fun x => .ok (-(x 1) ^ 2 + 3 * x 1 ^ 3 - x 1 ^ 4)) (fun _ => 0) 1 6 (fun m => if m = 2 then -1 else if m = 3 then 3 else if m = 4 then -1 else 0) := by
    intro t
    simp [sum_range_succ]
    ring
  obtain ⟨mu', d, e, hmu, -, -⟩ := diffs_spec (lf := fun x => .ok (-(x 1) ^ 2 + 3 * x 1 ^ 3 - x 1 ^ 4)) (lfmax := 0) (move := fun t x => put x 1 (0 + t)) (h := fun j => 1 / 10 * ratio ^ (3 + 1 - j))
    (P := fun t => put (fun _ => 0) 1 (0 + t)) (F := fun t => -t ^ 2 + 3 * t ^ 3 - t ^ 4) (fun s t => put_put _ _ _ _) (fun t => by simp) (3 + 1) 1 (fun _ => 0) junk.d2f
    (fun j _ _ => mul_ne_zero (by norm_num) (ratio_pow_ne _)) (fun t => rfl)
  have hr : ∃ mu s, obsinfo (fun x => .ok (-(x 1) ^ 2 + 3 * x 1 ^ 3 - x 1 ^ 4)) 1 (fun _ => 0) (fun _ => 1 / 10) none 3 junk = (mu, .ok s) := by
    have e0 : (none : Option ℝ).elim ((fun x => .ok (-(x 1) ^ 2 + 3 * x 1 ^ 3 - x 1 ^ 4) : LogF) fun _ => 0) .ok = .ok 0 := by simp
    rw [obsinfo, e0]
    dsimp only
    rw [ninfol, diag]
    dsimp only
    rw [e]
    exact ⟨_, _, rfl⟩
  obtain ⟨mu, s, hs⟩ := hr
  have h1 := (C70_symmetric hs).1
  subst h1
  refine ⟨s, hs, ?_⟩
  rw [C71_quintic hs (by omega) le_rfl le_rfl (by norm_num) hq (Or.inl rfl) (by norm_num)]
  norm_num

/-! ## C87: the arrays of the caller -/

/-- C87 (partial).  When `obsinfo` returns normally, the mode array holds what it held before.  Missing: when the log likelihood raises it does not (`C87_violated`). -/
theorem C87_obsinfo_partial {lf : LogF} {n : ℕ} {mle deltas : Vec} {maxll : Option ℝ} {niter : ℕ} {junk : Junk} {mu : Vec} {s : Info} (h : obsinfo lf n mle deltas maxll niter junk = (mu, .ok s)) : mu = mle := (obsinfo_ok h).1

theorem guess_frame {f : LogF} {fmax : ℝ} {i : ℕ} {x0 dxi : ℝ} : ∀ (fuel : ℕ) (s : ℝ) (x x' : Vec) (r : Except Status (ℝ × ℝ)), guess f fmax i x0 dxi fuel s x = some (x', r) → ∀ k, k ≠ i → x' k = x k := by
  intro fuel
  induction fuel with
  | zero => intro s x x' r h; simp [guess] at h
  | succ fuel ih =>
    intro s x x' r h k hk
    rw [guess] at h
    split at h
    · simp only [Option.some.injEq, Prod.mk.injEq] at h
      rw [← h.1, put_ne _ _ hk]
    · split_ifs at h
      · simp only [Option.some.injEq, Prod.mk.injEq] at h
        rw [← h.1, put_ne _ _ hk]
      · rw [ih _ _ _ _ h k hk, put_ne _ _ hk]
      · simp only [Option.some.injEq, Prod.mk.injEq] at h
        rw [← h.1, put_ne _ _ hk]

theorem guess_not_done {f : LogF} {fmax : ℝ} {i : ℕ} {x0 dxi : ℝ} : ∀ (fuel : ℕ) (s : ℝ) (x x' : Vec), guess f fmax i x0 dxi fuel s x ≠ some (x', .error .done) := by
  intro fuel
  induction fuel with
  | zero => intro s x x' h; simp [guess] at h
  | succ fuel ih =>
    intro s x x' h
    rw [guess] at h
    split at h
    · simp at h
    · split_ifs at h
      · simp at h
      · exact ih _ _ _ h
      · simp at h

theorem newton_done {f : LogF} {fmax fc tol : ℝ} {i : ℕ} {step : ℝ} : ∀ (left : ℕ) (x x' : Vec), newton f fmax fc tol i step left x = (x', .done) →
    (∀ k, k ≠ i → x' k = x k) ∧ ∃ v, f x' = .ok v ∧ |v - fc| ≤ tol ∧ v ≤ fmax := by
  intro left
  induction left with
  | zero =>
    intro x x' h
    rw [newton] at h
    split at h
    · simp at h
    · split_ifs at h <;> simp at h
  | succ left ih =>
    intro x x' h
    rw [newton] at h
    split at h
    · simp at h
    · rename_i fnew hf
      split_ifs at h with h1 h2
      · simp at h
      · dsimp only at h
        split at h
        · simp at h
        · split_ifs at h
          · simp at h
          · simp at h
          · obtain ⟨g1, g2⟩ := ih _ _ h
            refine ⟨fun k hk => ?_, g2⟩
            rw [g1 k hk, put_ne _ _ hk, put_ne _ _ hk]
      · simp only [Prod.mk.injEq, and_true] at h
        subst h
        exact ⟨fun _ _ => rfl, fnew, hf, not_lt.1 h2, not_lt.1 h1⟩

theorem scales_done {f : LogF} {fmax df tol : ℝ} {maxnr fuel : ℕ} : ∀ (cnt i : ℕ) (x dx x' dx' : Vec), scales fuel f fmax df maxnr tol cnt i x dx = some (x', dx', .done) →
    x' = x ∧ (∀ k, ¬ (i ≤ k ∧ k < i + cnt) → dx' k = dx k) ∧ ∀ k, i ≤ k → k < i + cnt → ∃ v, f (put x k (x k + dx' k)) = .ok v ∧ |v - (fmax - df)| ≤ tol ∧ v ≤ fmax := by
  intro cnt
  induction cnt with
  | zero =>
    intro i x dx x' dx' h
    simp only [scales, Option.some.injEq, Prod.mk.injEq, and_true] at h
    obtain ⟨rfl, rfl⟩ := h
    exact ⟨rfl, fun _ _ => rfl, fun k a b => by omega⟩
  | succ cnt ih =>
    intro i x dx x' dx' h
    rw [scales] at h
    split at h
    · simp at h
    · rename_i x1 st hg
      simp only [Option.some.injEq, Prod.mk.injEq] at h
      rw [h.2.2] at hg
      exact absurd hg (guess_not_done _ _ _ _)
    · rename_i x1 s del hg
      split_ifs at h with h0
      · simp at h
      split at h
      · rename_i x2 hn
        obtain ⟨g1, v, g2, g3, g4⟩ := newton_done _ _ _ hn
        have hf : ∀ k, k ≠ i → x2 k = x k := fun k hk => by rw [g1 k hk, put_ne _ _ hk, guess_frame _ _ _ _ _ hg k hk]
        rw [put_restore _ _ _ _ hf rfl] at h
        obtain ⟨r1, r2, r3⟩ := ih _ _ _ _ _ h
        refine ⟨r1, ?_, ?_⟩
        · intro k hk
          rw [r2 k (by omega), put_ne _ _ (by omega)]
        · intro k ka kb
          by_cases hk : k = i
          · subst hk
            rw [r2 k (by omega), put_self, add_sub_cancel]
            have : put x k (x2 k) = x2 := by
              funext m
              by_cases hm : m = k
              · subst hm; rw [put_self]
              · rw [put_ne _ _ hm, hf m hm]
            rw [this]
            exact ⟨v, g2, g3, g4⟩
          · exact r3 k (by omega) (by omega)
      · rename_i x2 st hne hn
        simp only [Option.some.injEq, Prod.mk.injEq] at h
        exact absurd h.2.2 (by rintro rfl; exact hne rfl)

theorem dllsteps_ok {fuel : ℕ} {f : LogF} {n : ℕ} {mle gs : Vec} {dll : ℝ} {maxll : Option ℝ} {maxiter : ℕ} {tol : ℝ} {x dx r : Vec} (h : dllsteps fuel f n mle gs dll maxll maxiter tol = some (x, dx, .ok r)) :
    ∃ m, maxll.elim (f mle) .ok = .ok m ∧ r = dx ∧ scales fuel f m dll maxiter tol n 1 mle gs = some (x, dx, .done) := by
  rw [dllsteps] at h
  rcases hm : maxll.elim (f mle) .ok with e | m
  · rw [hm] at h; simp at h
  rw [hm] at h
  dsimp only at h
  split at h
  · simp at h
  · rename_i x1 dx1 hs
    simp only [Option.some.injEq, Prod.mk.injEq, Except.ok.injEq] at h
    obtain ⟨rfl, rfl, rfl⟩ := h
    exact ⟨m, rfl, rfl, hs⟩
  · simp at h
  · simp at h
  · simp at h

/-- C87 (partial).  When `dllsteps` returns normally, the mode array holds what it held before.  Missing: on every failure, and for the array of guesses (`C87_violated`). -/
theorem C87_dllsteps_partial {fuel : ℕ} {f : LogF} {n : ℕ} {mle gs : Vec} {dll : ℝ} {maxll : Option ℝ} {maxiter : ℕ} {tol : ℝ} {x dx r : Vec}
    (h : dllsteps fuel f n mle gs dll maxll maxiter tol = some (x, dx, .ok r)) : x = mle := by
  obtain ⟨m, -, -, hs⟩ := dllsteps_ok h
  exact (scales_done _ _ _ _ _ _ hs).1

/-! ## C88: scales for a change of the log likelihood -/

/-- C88.  When `dllsteps` returns normally, moving any one parameter by its scale lowers the log likelihood from its maximum by the requested change, to within the tolerance; for every log likelihood, dimension
and number of iterations. -/
theorem C88_change {fuel : ℕ} {f : LogF} {n : ℕ} {mle gs : Vec} {dll : ℝ} {maxll : Option ℝ} {maxiter : ℕ} {tol : ℝ} {x dx r : Vec} {m : ℝ} (hm : f mle = .ok m) (hM : maxll = none ∨ maxll = some m)
    (h : dllsteps fuel f n mle gs dll maxll maxiter tol = some (x, dx, .ok r)) :
    ∀ k, 1 ≤ k → k ≤ n → ∃ v, f (put mle k (mle k + r k)) = .ok v ∧ |v - (m - dll)| ≤ tol ∧ v ≤ m := by
  obtain ⟨m', e, rfl, hs⟩ := dllsteps_ok h
  have : m' = m := by
    rcases hM with rfl | rfl
    · simp only [Option.elim, hm, Except.ok.injEq] at e; exact e.symm
    · simp only [Option.elim, Except.ok.injEq] at e; exact e.symm
  subst this
  intro k k1 k2
  exact (scales_done _ _ _ _ _ _ hs).2.2 k k1 (by omega)

theorem scales_quad {fuel : ℕ} {f : LogF} {n : ℕ} {mle : Vec} {c dll tol : ℝ} {H : ℕ → ℝ} (hH : ∀ k, 1 ≤ k → k ≤ n → 0 < H k) {gs : Vec} (hf : ∀ k, 1 ≤ k → k ≤ n → ∀ t, |t| ≤ max |gs k| √(2 * dll / H k) → f (put mle k (mle k + t)) = .ok (c - 1 / 2 * H k * t ^ 2))
    (hdll : 0 < dll) (htol : 0 ≤ tol) {maxiter : ℕ} : ∀ (cnt i : ℕ) (dx : Vec), 1 ≤ i → i + cnt = n + 1 → (∀ k, i ≤ k → k ≤ n → dx k ≠ 0 ∧ dx k = gs k) →
    ∃ dx', scales (fuel + 1) f c dll (maxiter + 1) tol cnt i mle dx = some (mle, dx', .done) ∧ (∀ k, k < i → dx' k = dx k) ∧ ∀ k, i ≤ k → k ≤ n → dx' k ^ 2 = 2 * dll / H k ∧ 0 < dx' k * dx k := by
  intro cnt
  induction cnt with
  | zero => exact fun i dx h1 h2 _ => ⟨dx, rfl, fun _ _ => rfl, fun k a b => by omega⟩
  | succ cnt ih =>
    intro i dx h1 h2 hdx
    have hi : i ≤ n := by omega
    have hp := hH i h1 hi
    obtain ⟨hd0, hgs⟩ := hdx i le_rfl hi
    have hsq : 0 < dx i ^ 2 := by positivity
    rw [scales]
    rw [guess]
    rw [one_mul, hf i h1 hi _ (by rw [hgs]; exact le_max_left _ _)]
    dsimp only
    have e1 : c - (c - 1 / 2 * H i * dx i ^ 2) = 1 / 2 * H i * dx i ^ 2 := by ring
    have e2 : 0 < 1 / 2 * H i * dx i ^ 2 := by positivity
    rw [if_neg (by linarith), e1, if_neg (not_le.2 e2)]
    dsimp only
    rw [if_neg (not_lt.2 hdll.le), one_mul, put_put]
    set r := √(dll / (1 / 2 * H i * dx i ^ 2)) with hr
    have hr0 : 0 < r := by rw [hr]; exact Real.sqrt_pos.2 (div_pos hdll e2)
    have hr2 : r ^ 2 = dll / (1 / 2 * H i * dx i ^ 2) := by rw [hr, Real.sq_sqrt (div_pos hdll e2).le]
    have ha : (dx i * r) ^ 2 = 2 * dll / H i := by rw [mul_pow, hr2]; field_simp
    have hv : c - 1 / 2 * H i * (dx i * r) ^ 2 = c - dll := by rw [ha]; field_simp
    have hn : newton f c (c - dll) tol i (dx i) (maxiter + 1) (put mle i (mle i + dx i * r)) = (put mle i (mle i + dx i * r), .done) := by
      rw [newton, hf i h1 hi _ (by rw [← Real.sqrt_sq_eq_abs, ha]; exact le_max_right _ _), hv]
      dsimp only
      rw [if_neg (by linarith), if_neg (by rw [sub_self, abs_zero]; exact not_lt.2 htol)]
    rw [hn]
    dsimp only
    rw [put_put, put_get, put_self, add_sub_cancel_left]
    obtain ⟨dx', g1, g2, g3⟩ := ih (i + 1) (put dx i (dx i * r)) (by omega) (by omega) (fun k a b => by rw [put_ne _ _ (by omega)]; exact hdx k (by omega) b)
    refine ⟨dx', g1, fun k hk => by rw [g2 k (by omega), put_ne _ _ (by omega)], ?_⟩
    intro k a b
    by_cases hk : k = i
    · subst hk
      rw [g2 k (by omega), put_self]
      refine ⟨ha, ?_⟩
      have : dx k * r * dx k = dx k ^ 2 * r := by ring
      rw [this]; positivity
    · have := g3 k (by omega) b
      rwa [put_ne _ _ hk] at this

/-- C88.  For a log likelihood that is quadratic along each axis, `dllsteps` returns, for any guesses that are not zero, the exact scales: the square of each is twice the change over the curvature, and its sign
is that of the guess.  It suffices that it is quadratic as far as the guess and the scale. -/
theorem C88_quadratic {f : LogF} {n : ℕ} {mle gs : Vec} {c dll tol : ℝ} {H : ℕ → ℝ} (hc : f mle = .ok c) (hH : ∀ k, 1 ≤ k → k ≤ n → 0 < H k)
    (hf : ∀ k, 1 ≤ k → k ≤ n → ∀ t, |t| ≤ max |gs k| √(2 * dll / H k) → f (put mle k (mle k + t)) = .ok (c - 1 / 2 * H k * t ^ 2)) (hg : ∀ k, 1 ≤ k → k ≤ n → gs k ≠ 0) (hdll : 0 < dll) (htol : 0 ≤ tol) {maxll : Option ℝ}
    (hM : maxll = none ∨ maxll = some c) (fuel maxiter : ℕ) :
    ∃ r, dllsteps (fuel + 1) f n mle gs dll maxll (maxiter + 1) tol = some (mle, r, .ok r) ∧ ∀ k, 1 ≤ k → k ≤ n → r k ^ 2 = 2 * dll / H k ∧ 0 < r k * gs k := by
  obtain ⟨r, h1, -, h2⟩ := scales_quad (fuel := fuel) (maxiter := maxiter) hH hf hdll htol n 1 gs le_rfl (by omega) (fun k a b => ⟨hg k a b, rfl⟩)
  refine ⟨r, ?_, h2⟩
  have e : maxll.elim (f mle) .ok = .ok c := by
    rcases hM with rfl | rfl
    · exact hc
    · rfl
  rw [dllsteps, e]
  dsimp only
  rw [h1]

/-- C87 is false of the code.  (1) A log likelihood that raises away from the mode leaves the point where it raised in the mode array of `obsinfo`.  (2) So does `dllsteps` when it finds that the mode is not a
maximum.  (3) `dllsteps` overwrites the array of guesses with its result. -/
theorem C87_violated :
    (∀ (niter : ℕ) (junk : Junk), obsinfo (fun x => if x 1 = 0 then .ok 0 else .error .value) 1 (fun _ => 0) (fun _ => 1) none niter junk = (put (fun _ => 0) 1 (0 + 1 * ratio ^ niter), .error (.raised .value)) ∧
      put (fun _ => 0) 1 (0 + 1 * ratio ^ niter) 1 ≠ 0) ∧
    (∀ (fuel maxiter : ℕ) (dll tol : ℝ), dllsteps (fuel + 1) (fun x => .ok (x 1)) 1 (fun _ => 0) (fun _ => 1) dll none maxiter tol = some (put (fun _ => 0) 1 1, fun _ => 1, .error (.raised .value))) ∧
    (∀ (fuel maxiter : ℕ), ∃ r, dllsteps (fuel + 1) (fun x => .ok (-(x 1) ^ 2)) 1 (fun _ => 0) (fun _ => 1) 4 none (maxiter + 1) (1 / 100) = some (fun _ => 0, r, .ok r) ∧ r 1 ≠ 1) := by
  refine ⟨fun niter junk => ⟨?_, ?_⟩, ?_, ?_⟩
  · have e0 : (none : Option ℝ).elim ((fun x => if x 1 = 0 then .ok 0 else .error .value : LogF) fun _ => 0) .ok = .ok 0 := by simp
    rw [obsinfo, e0]
    dsimp only
    rw [ninfol, diag]
    dsimp only
    rw [diffs]
    dsimp only
    rw [put_self, show niter + 1 - 1 = niter by omega, if_neg (by rw [zero_add, one_mul]; exact ratio_pow_ne _)]
  · rw [put_self, zero_add, one_mul]; exact ratio_pow_ne _
  · intro fuel maxiter dll tol
    simp [dllsteps, scales, guess]
  · intro fuel maxiter
    obtain ⟨r, h1, h2⟩ := C88_quadratic (f := fun x => .ok (-(x 1) ^ 2)) (n := 1) (mle := fun _ => 0) (gs := fun _ => 1) (c := 0) (dll := 4) (tol := 1 / 100) (H := fun _ => 2) (by norm_num)
      (fun _ _ _ => by norm_num) (fun k a b t _ => by obtain rfl : k = 1 := (by omega); simp) (fun _ _ _ => by norm_num) (by norm_num) (by norm_num) (Or.inl rfl) fuel maxiter
    refine ⟨r, h1, fun h => ?_⟩
    have := (h2 1 le_rfl le_rfl).1
    rw [h] at this
    norm_num at this

/-- C88 is false of the code where the documentation gives the tolerance as a percentage of the change: it is an absolute difference.  For the log likelihood `-x ^ 4`, the change 1/10000 and the default tolerance,
the scale returned changes the log likelihood by a ten thousandth of what was asked for.  And for a log likelihood that is constant there is no result after any number of trials: the search never ends. -/
theorem C88_violated :
    (∀ fuel maxiter : ℕ, ∃ r, dllsteps (fuel + 1) (fun x => .ok (-(x 1) ^ 4)) 1 (fun _ => 0) (fun _ => 1) (1 / 10 ^ 4) none (maxiter + 1) (1 / 100) = some (fun _ => 0, r, .ok r) ∧
      -(r 1) ^ 4 = -(1 / 10 ^ 4) * (1 / 10 ^ 4)) ∧
    ∀ (fuel n maxiter : ℕ) (mle gs : Vec) (dll tol : ℝ), dllsteps fuel (fun _ => .ok 0) (n + 1) mle gs dll none maxiter tol = none := by
  refine ⟨fun fuel maxiter => ?_, ?_⟩
  · have e : √(1 / 10 ^ 4 : ℝ) = 1 / 100 := by rw [show (1 / 10 ^ 4 : ℝ) = (1 / 100) ^ 2 by norm_num, Real.sqrt_sq (by norm_num)]
    refine ⟨put (fun _ => 1) 1 (1 / 100), ?_, by rw [put_self]; norm_num⟩
    have e0 : (none : Option ℝ).elim ((fun x => .ok (-(x 1) ^ 4) : LogF) fun _ => 0) .ok = .ok 0 := by simp
    rw [dllsteps, e0]
    dsimp only
    rw [scales]
    rw [guess]
    dsimp only
    rw [put_self, if_neg (by norm_num), if_neg (by norm_num)]
    dsimp only
    rw [if_neg (by norm_num), show (1 / 10 ^ 4 / (0 - -(0 + 1 * 1) ^ 4) : ℝ) = 1 / 10 ^ 4 by norm_num, e, put_put, newton]
    dsimp only
    rw [put_self, if_neg (by norm_num), if_neg (by norm_num [abs_le, not_lt])]
    dsimp only
    rw [scales, put_put, put_self]
    dsimp only
    rw [show put (fun _ => (0 : ℝ)) 1 0 = fun _ => 0 from put_get (fun _ => 0) 1, show (0 + 1 * 1 * (1 / 100) - 0 : ℝ) = 1 / 100 by norm_num]
  · intro fuel n maxiter mle gs dll tol
    have hg : ∀ (fuel : ℕ) (s x0 dxi : ℝ) (x : Vec), guess (fun _ => .ok 0) 0 1 x0 dxi fuel s x = none := by
      intro fuel
      induction fuel with
      | zero => intros; rfl
      | succ fuel ih =>
        intro s x0 dxi x
        rw [guess]
        dsimp only
        rw [if_neg (by norm_num), if_pos (by norm_num), ih]
    rw [dllsteps]
    simp only [Option.elim]
    rw [scales]
    rw [hg]

example : ∃ r, dllsteps 1 (fun x => .ok (7 - 1 / 2 * 8 * (x 1) ^ 2)) 1 (fun _ => 0) (fun _ => -3) 1 none 20 (1 / 100) = some (fun _ => 0, r, .ok r) ∧ r 1 ^ 2 = 2 * 1 / 8 ∧ 0 < r 1 * -3 := by
  obtain ⟨r, h1, h2⟩ := C88_quadratic (f := fun x => .ok (7 - 1 / 2 * 8 * (x 1) ^ 2)) (n := 1) (mle := fun _ => 0) (gs := fun _ => -3) (c := 7) (dll := 1) (tol := 1 / 100) (H := fun _ => 8) (by norm_num)
    (fun _ _ _ => by norm_num) (fun k a b t _ => by obtain rfl : k = 1 := (by omega); simp) (fun _ _ _ => by norm_num) (by norm_num) (by norm_num) (Or.inl rfl) 0 19
  exact ⟨r, h1, h2 1 le_rfl le_rfl⟩

end Verif.Obs
