import Verif.Bha.Bha
import Verif.Gauss.VbaProps
import Mathlib.Algebra.BigOperators.Field

/-!
# Bayesian harmonic analysis: lemmas
-/

set_option linter.unusedSectionVars false

namespace Verif.Bha

open Real Verif.Vba Finset

/-! ## Sums of sines and cosines -/

theorem sum_cos (h : ℝ) (n : ℕ) : sin h * ∑ k ∈ range n, cos (2 * h * k) = cos (((n : ℝ) - 1) * h) * sin (n * h) := by
  induction n with
  | zero => simp
  | succ n ih =>
    rw [sum_range_succ, mul_add, ih]
    have e1 : ((n : ℝ) - 1) * h = n * h - h := by ring
    have e2 : ((n + 1 : ℕ) : ℝ) * h = n * h + h := by push_cast; ring
    have e3 : (((n + 1 : ℕ) : ℝ) - 1) * h = n * h := by push_cast; ring
    have e4 : 2 * h * (n : ℝ) = 2 * (n * h) := by ring
    rw [e1, e2, e3, e4, cos_sub, sin_add, cos_two_mul']
    ring

theorem sum_sin (h : ℝ) (n : ℕ) : sin h * ∑ k ∈ range n, sin (2 * h * k) = sin (((n : ℝ) - 1) * h) * sin (n * h) := by
  induction n with
  | zero => simp
  | succ n ih =>
    rw [sum_range_succ, mul_add, ih]
    have e1 : ((n : ℝ) - 1) * h = n * h - h := by ring
    have e2 : ((n + 1 : ℕ) : ℝ) * h = n * h + h := by push_cast; ring
    have e3 : (((n + 1 : ℕ) : ℝ) - 1) * h = n * h := by push_cast; ring
    have e4 : 2 * h * (n : ℝ) = 2 * (n * h) := by ring
    rw [e1, e2, e3, e4, sin_sub, sin_add, sin_two_mul]
    ring

theorem half_cos {h : ℝ} (hs : sin h ≠ 0) (n : ℕ) : cos (((n : ℝ) - 1) * h) * (0.5 * sin (n * h) / sin h) = ∑ k ∈ range n, cos (2 * h * k) / 2 := by
  rw [← sum_div, eq_div_iff two_ne_zero]
  refine mul_left_cancel₀ hs ?_
  rw [sum_cos]
  field_simp
  norm_num
  ring

theorem half_sin {h : ℝ} (hs : sin h ≠ 0) (n : ℕ) : sin (((n : ℝ) - 1) * h) * (0.5 * sin (n * h) / sin h) = ∑ k ∈ range n, sin (2 * h * k) / 2 := by
  rw [← sum_div, eq_div_iff two_ne_zero]
  refine mul_left_cancel₀ hs ?_
  rw [sum_sin]
  field_simp
  norm_num
  ring

theorem sameSums_spec {g : ℝ} (hs : sin g ≠ 0) (n : ℕ) :
    sameSums n g = .ok (∑ k ∈ range n, cos (g * k) * cos (g * k), ∑ k ∈ range n, sin (g * k) * sin (g * k), ∑ k ∈ range n, cos (g * k) * sin (g * k)) := by
  unfold sameSums
  rw [if_neg hs]
  simp only [half_cos hs, half_sin hs]
  have hn : 0.5 * (n : ℝ) = ∑ k ∈ range n, (1 / 2 : ℝ) := by rw [sum_const, card_range, nsmul_eq_mul]; norm_num; ring
  rw [hn, ← sum_add_distrib, ← sum_sub_distrib]
  refine congrArg _ (Prod.ext ?_ (Prod.ext ?_ ?_))
  · dsimp only
    refine sum_congr rfl fun k _ => ?_
    rw [show 2 * g * (k : ℝ) = 2 * (g * k) by ring, cos_two_mul]
    ring
  · dsimp only
    refine sum_congr rfl fun k _ => ?_
    rw [show 2 * g * (k : ℝ) = 2 * (g * k) by ring, cos_two_mul, cos_sq']
    ring
  · dsimp only
    refine sum_congr rfl fun k _ => ?_
    rw [show 2 * g * (k : ℝ) = 2 * (g * k) by ring, sin_two_mul]
    ring

theorem diffSums_spec {g1 g2 hgp hgm : ℝ} (ep : 2 * hgp = g1 + g2) (em : 2 * hgm = g2 - g1) (hp : sin hgp ≠ 0) (hm : sin hgm ≠ 0) (n : ℕ) :
    diffSums n hgp hgm = .ok (∑ k ∈ range n, cos (g1 * k) * cos (g2 * k), ∑ k ∈ range n, sin (g1 * k) * sin (g2 * k), ∑ k ∈ range n, cos (g1 * k) * sin (g2 * k), ∑ k ∈ range n, sin (g1 * k) * cos (g2 * k)) := by
  unfold diffSums
  rw [if_neg (by tauto)]
  simp only [half_cos hp, half_sin hp, half_cos hm, half_sin hm, ep, em]
  rw [← sum_add_distrib, ← sum_add_distrib, ← sum_sub_distrib, ← sum_neg_distrib, ← sum_add_distrib]
  have a1 : ∀ k : ℕ, (g1 + g2) * (k : ℝ) = g1 * k + g2 * k := fun k => by ring
  have a2 : ∀ k : ℕ, (g2 - g1) * (k : ℝ) = g2 * k - g1 * k := fun k => by ring
  simp only [a1, a2, cos_add, cos_sub, sin_add, sin_sub]
  refine congrArg _ (Prod.ext ?_ (Prod.ext ?_ (Prod.ext ?_ ?_)))
  · dsimp only
    exact sum_congr rfl fun k _ => by ring
  · dsimp only
    exact sum_congr rfl fun k _ => by ring
  · dsimp only
    exact sum_congr rfl fun k _ => by ring
  · dsimp only
    exact sum_congr rfl fun k _ => by ring

/-! ## The metric -/

/-- The design matrix: rows of cosines and sines in turn, for angular frequencies per sample `gam 0`, `gam 1`, ... -/
noncomputable def sinusoids (gam : ℕ → ℝ) : Arr2 := fun p k => if p % 2 = 0 then cos (gam (p / 2) * k) else sin (gam (p / 2) * k)

/-- The products of its rows. -/
noncomputable def gram (gam : ℕ → ℝ) (n p q : ℕ) : ℝ := ∑ k ∈ range n, sinusoids gam p k * sinusoids gam q k

theorem gram_symm (gam : ℕ → ℝ) (n p q : ℕ) : gram gam n p q = gram gam n q p := sum_congr rfl fun _ _ => mul_comm _ _

/-- The entries that are done hold the products, the others zero. -/
def MInv (gam : ℕ → ℝ) (n : ℕ) (D : ℕ → ℕ → Prop) (M : Arr2) : Prop := ∀ p q, (D p q → M p q = gram gam n p q) ∧ (¬ D p q → M p q = 0)

/-- The two blocks for a pair of sinusoids. -/
def Blk (i j p q : ℕ) : Prop := (p / 2 + 1 = i ∧ q / 2 + 1 = j) ∨ (p / 2 + 1 = j ∧ q / 2 + 1 = i)

theorem MInv.congr {gam : ℕ → ℝ} {n : ℕ} {D D' : ℕ → ℕ → Prop} {M : Arr2} (h : MInv gam n D M) (hd : ∀ p q, D p q ↔ D' p q) : MInv gam n D' M :=
  fun p q => ⟨fun hp => (h p q).1 ((hd p q).2 hp), fun hp => (h p q).2 fun hq => hp ((hd p q).1 hq)⟩

theorem MInv.set {gam : ℕ → ℝ} {n : ℕ} {D : ℕ → ℕ → Prop} {M : Arr2} (h : MInv gam n D M) {i j : ℕ} {v : ℝ} (hv : v = gram gam n i j) :
    MInv gam n (fun p q => D p q ∨ (p = i ∧ q = j)) (set2 M i j v) := by
  intro p q
  unfold set2
  by_cases hpq : p = i ∧ q = j
  · rw [if_pos hpq, hv, hpq.1, hpq.2]
    exact ⟨fun _ => rfl, fun hn => absurd (Or.inr ⟨rfl, rfl⟩) hn⟩
  · rw [if_neg hpq]
    exact ⟨fun hd => (h p q).1 (hd.resolve_right hpq), fun hn => (h p q).2 fun hd => hn (Or.inl hd)⟩

theorem forUp_two {σ : Type} (a : ℕ) (f : ℕ → σ → σ) (s : σ) : forUp (2 * a) (2 * a + 2) f s = f (2 * a + 1) (f (2 * a) s) := by
  unfold forUp
  rw [show 2 * a + 2 - 2 * a = 2 by omega]
  simp [List.range']

theorem half_iff (p i : ℕ) : p / 2 + 1 = i + 1 ↔ p = 2 * i ∨ p = 2 * i + 1 := by omega

theorem block_or (D a a' b b' : Prop) : (D ∨ (a ∨ a') ∧ (b ∨ b')) ↔ (((D ∨ (a ∧ b)) ∨ (a ∧ b')) ∨ (a' ∧ b)) ∨ (a' ∧ b') := by tauto

theorem blk_iff (D : Prop) (i j p q : ℕ) : (D ∨ Blk (i + 1) (j + 1) p q) ↔ ((((((((D ∨ (p = 2 * i ∧ q = 2 * j)) ∨ (p = 2 * i ∧ q = 2 * j + 1)) ∨ (p = 2 * i + 1 ∧ q = 2 * j)) ∨ (p = 2 * i + 1 ∧ q = 2 * j + 1)) ∨ (p = 2 * j ∧ q = 2 * i)) ∨ (p = 2 * j + 1 ∧ q = 2 * i)) ∨ (p = 2 * j ∧ q = 2 * i + 1)) ∨ (p = 2 * j + 1 ∧ q = 2 * i + 1)) := by
  unfold Blk
  rw [half_iff, half_iff, half_iff, half_iff, ← or_assoc, block_or D, and_comm (a := p = 2 * j ∨ p = 2 * j + 1), block_or, and_comm (a := p = 2 * j), and_comm (a := p = 2 * j + 1), and_comm (a := p = 2 * j), and_comm (a := p = 2 * j + 1)]

theorem blk_same (D : Prop) (i p q : ℕ) : (D ∨ Blk (i + 1) (i + 1) p q) ↔ ((((D ∨ (p = 2 * i ∧ q = 2 * i)) ∨ (p = 2 * i ∧ q = 2 * i + 1)) ∨ (p = 2 * i + 1 ∧ q = 2 * i)) ∨ (p = 2 * i + 1 ∧ q = 2 * i + 1)) := by
  unfold Blk
  rw [or_self, half_iff, half_iff, block_or]

/-- The values in a block. -/
theorem gram_block (gam : ℕ → ℝ) (n i j : ℕ) :
    gram gam n (2 * i) (2 * j) = ∑ k ∈ range n, cos (gam i * k) * cos (gam j * k) ∧ gram gam n (2 * i) (2 * j + 1) = ∑ k ∈ range n, cos (gam i * k) * sin (gam j * k) ∧
    gram gam n (2 * i + 1) (2 * j) = ∑ k ∈ range n, sin (gam i * k) * cos (gam j * k) ∧ gram gam n (2 * i + 1) (2 * j + 1) = ∑ k ∈ range n, sin (gam i * k) * sin (gam j * k) := by
  have a : ∀ i, 2 * i % 2 = 0 := fun i => by omega
  have b : ∀ i, 2 * i / 2 = i := fun i => by omega
  have c : ∀ i, (2 * i + 1) % 2 = 1 := fun i => by omega
  have d : ∀ i, (2 * i + 1) / 2 = i := fun i => by omega
  simp only [gram, sinusoids, a, b, c, d, if_true, one_ne_zero, if_false, and_self]

theorem copyBelow_spec {gam : ℕ → ℝ} {n : ℕ} {D : ℕ → ℕ → Prop} {M : Arr2} {i j : ℕ} (hij : i < j)
    (h : MInv gam n (fun p q => (((D p q ∨ (p = 2 * i ∧ q = 2 * j)) ∨ (p = 2 * i ∧ q = 2 * j + 1)) ∨ (p = 2 * i + 1 ∧ q = 2 * j)) ∨ (p = 2 * i + 1 ∧ q = 2 * j + 1)) M) :
    MInv gam n (fun p q => D p q ∨ Blk (i + 1) (j + 1) p q) (copyBelow (i + 1) (j + 1) M) := by
  have e1 : M (2 * i) (2 * j) = gram gam n (2 * i) (2 * j) := (h _ _).1 (by simp)
  have e2 : M (2 * i) (2 * j + 1) = gram gam n (2 * i) (2 * j + 1) := (h _ _).1 (by simp)
  have e3 : M (2 * i + 1) (2 * j) = gram gam n (2 * i + 1) (2 * j) := (h _ _).1 (by simp)
  have e4 : M (2 * i + 1) (2 * j + 1) = gram gam n (2 * i + 1) (2 * j + 1) := (h _ _).1 (by simp)
  unfold copyBelow
  rw [show 2 * (i + 1) - 2 = 2 * i by omega, show 2 * (i + 1) = 2 * i + 2 by ring, show 2 * (j + 1) - 2 = 2 * j by omega, show 2 * (j + 1) = 2 * j + 2 by ring]
  simp only [forUp_two]
  have s1 := h.set (i := 2 * j) (j := 2 * i) (v := M (2 * i) (2 * j)) (by rw [e1, gram_symm])
  set M1 := set2 M (2 * j) (2 * i) (M (2 * i) (2 * j)) with hM1
  have k1 : M1 (2 * i) (2 * j + 1) = M (2 * i) (2 * j + 1) := by rw [hM1]; unfold set2; rw [if_neg (by omega)]
  have s2 := s1.set (i := 2 * j + 1) (j := 2 * i) (v := M1 (2 * i) (2 * j + 1)) (by rw [k1, e2, gram_symm])
  set M2 := set2 M1 (2 * j + 1) (2 * i) (M1 (2 * i) (2 * j + 1)) with hM2
  have k2 : M2 (2 * i + 1) (2 * j) = M (2 * i + 1) (2 * j) := by rw [hM2, hM1]; unfold set2; rw [if_neg (by omega), if_neg (by omega)]
  have s3 := s2.set (i := 2 * j) (j := 2 * i + 1) (v := M2 (2 * i + 1) (2 * j)) (by rw [k2, e3, gram_symm])
  set M3 := set2 M2 (2 * j) (2 * i + 1) (M2 (2 * i + 1) (2 * j)) with hM3
  have k3 : M3 (2 * i + 1) (2 * j + 1) = M (2 * i + 1) (2 * j + 1) := by rw [hM3, hM2, hM1]; unfold set2; rw [if_neg (by omega), if_neg (by omega), if_neg (by omega)]
  have s4 := s3.set (i := 2 * j + 1) (j := 2 * i + 1) (v := M3 (2 * i + 1) (2 * j + 1)) (by rw [k3, e4, gram_symm])
  exact s4.congr fun p q => (blk_iff _ i j p q).symm

/-- What the sums need of the frequencies. -/
structure Fine (gam : ℕ → ℝ) (g : ℕ → ℝ) (hgp hgm : ℕ → ℕ → ℝ) (nsin : ℕ) : Prop where
  g_eq : ∀ i < nsin, g (i + 1) = gam i
  p_eq : ∀ i j, i < j → j < nsin → 2 * hgp (i + 1) (j + 1) = gam i + gam j
  m_eq : ∀ i j, i < j → j < nsin → 2 * hgm (i + 1) (j + 1) = gam j - gam i
  g_ne : ∀ i < nsin, sin (gam i) ≠ 0
  p_ne : ∀ i j, i < j → j < nsin → sin ((gam i + gam j) / 2) ≠ 0
  m_ne : ∀ i j, i < j → j < nsin → sin ((gam j - gam i) / 2) ≠ 0

theorem blockBody_spec {gam g : ℕ → ℝ} {hgp hgm : ℕ → ℕ → ℝ} {nsin n : ℕ} (hf : Fine gam g hgp hgm nsin) {D : ℕ → ℕ → Prop} {M : Arr2} (h : MInv gam n D M) {i j : ℕ} (hij : i ≤ j) (hj : j < nsin) :
    ∃ M', blockBody n g hgp hgm (i + 1) (j + 1) M = .ok M' ∧ MInv gam n (fun p q => D p q ∨ Blk (i + 1) (j + 1) p q) M' := by
  obtain ⟨b1, b2, b3, b4⟩ := gram_block gam n i j
  unfold blockBody
  rw [show 2 * (i + 1) - 2 = 2 * i by omega, show 2 * (i + 1) - 1 = 2 * i + 1 by omega, show 2 * (j + 1) - 2 = 2 * j by omega, show 2 * (j + 1) - 1 = 2 * j + 1 by omega]
  by_cases he : i = j
  · subst he
    rw [if_pos rfl, hf.g_eq i hj, sameSums_spec (hf.g_ne i hj)]
    refine ⟨_, rfl, ?_⟩
    have s1 := h.set (i := 2 * i) (j := 2 * i) b1.symm
    have s2 := s1.set (i := 2 * i) (j := 2 * i + 1) b2.symm
    have k : ∀ M : Arr2, ∀ v, set2 M (2 * i) (2 * i + 1) v (2 * i) (2 * i + 1) = v := fun M v => set2_self ..
    rw [k]
    have s3 := s2.set (i := 2 * i + 1) (j := 2 * i) (v := ∑ k ∈ range n, cos (gam i * k) * sin (gam i * k)) (by rw [b3]; exact sum_congr rfl fun _ _ => mul_comm _ _)
    have s4 := s3.set (i := 2 * i + 1) (j := 2 * i + 1) b4.symm
    exact s4.congr fun p q => (blk_same _ i p q).symm
  · have hlt : i < j := by omega
    have ep := hf.p_eq i j hlt hj
    have em := hf.m_eq i j hlt hj
    have hp : sin (hgp (i + 1) (j + 1)) ≠ 0 := by
      have := hf.p_ne i j hlt hj
      rwa [← ep, mul_div_cancel_left₀ _ (two_ne_zero)] at this
    have hm : sin (hgm (i + 1) (j + 1)) ≠ 0 := by
      have := hf.m_ne i j hlt hj
      rwa [← em, mul_div_cancel_left₀ _ (two_ne_zero)] at this
    rw [if_neg (by omega), diffSums_spec ep em hp hm]
    refine ⟨_, rfl, ?_⟩
    exact copyBelow_spec hlt ((((h.set b1.symm).set b2.symm).set b3.symm).set b4.symm)

/-- A loop whose turns each do their blocks. -/
theorem fold_blocks {gam : ℕ → ℝ} {n : ℕ} {f : Arr2 → ℕ → Except Stop Arr2} {B : ℕ → ℕ → ℕ → Prop} (l : List ℕ)
    (hs : ∀ i ∈ l, ∀ D M, MInv gam n D M → ∃ M', f M i = .ok M' ∧ MInv gam n (fun p q => D p q ∨ B i p q) M') (D : ℕ → ℕ → Prop) (M : Arr2) (h : MInv gam n D M) :
    ∃ M', l.foldlM f M = .ok M' ∧ MInv gam n (fun p q => D p q ∨ ∃ i ∈ l, B i p q) M' := by
  induction l generalizing D M with
  | nil => exact ⟨M, rfl, h.congr fun p q => by simp⟩
  | cons i l ih =>
    obtain ⟨M1, e1, h1⟩ := hs i (List.mem_cons_self ..) D M h
    obtain ⟨M2, e2, h2⟩ := ih (fun i hi => hs i (List.mem_cons_of_mem _ hi)) _ M1 h1
    refine ⟨M2, ?_, h2.congr fun p q => ?_⟩
    · rw [List.foldlM_cons, e1]
      exact e2
    · simp only [List.mem_cons, exists_eq_or_imp]
      tauto

theorem metricB_spec {gam g : ℕ → ℝ} {hgp hgm : ℕ → ℕ → ℝ} {nsin n : ℕ} (hf : Fine gam g hgp hgm nsin) :
    ∃ M, metricB nsin n g hgp hgm = .ok M ∧ ∀ p q, M p q = if p < 2 * nsin ∧ q < 2 * nsin then gram gam n p q else 0 := by
  have h0 : MInv gam n (fun _ _ => False) fun _ _ => 0 := fun p q => ⟨False.elim, fun _ => rfl⟩
  obtain ⟨M, e, h⟩ := fold_blocks (gam := gam) (n := n) (f := fun M i => (List.range' i (nsin + 1 - i)).foldlM (fun M j => blockBody n g hgp hgm i j M) M)
    (B := fun i p q => ∃ j ∈ List.range' i (nsin + 1 - i), Blk i j p q) (List.range' 1 nsin) (by
      intro i hi D M hM
      refine fold_blocks (B := fun j p q => Blk i j p q) _ ?_ D M hM
      intro j hj D M hM
      simp only [List.mem_range'_1] at hi hj
      obtain ⟨i, rfl⟩ : ∃ i', i = i' + 1 := ⟨i - 1, by omega⟩
      obtain ⟨j, rfl⟩ : ∃ j', j = j' + 1 := ⟨j - 1, by omega⟩
      exact blockBody_spec hf hM (by omega) (by omega)) _ _ h0
  refine ⟨M, e, fun p q => ?_⟩
  have hD : (False ∨ ∃ i ∈ List.range' 1 nsin, ∃ j ∈ List.range' i (nsin + 1 - i), Blk i j p q) ↔ (p < 2 * nsin ∧ q < 2 * nsin) := by
    simp only [List.mem_range'_1, false_or, Blk]
    constructor
    · rintro ⟨i, hi, j, hj, h⟩
      omega
    · rintro ⟨h1, h2⟩
      rcases le_total (p / 2) (q / 2) with h | h
      · exact ⟨p / 2 + 1, by omega, q / 2 + 1, by omega, Or.inl ⟨rfl, rfl⟩⟩
      · exact ⟨q / 2 + 1, by omega, p / 2 + 1, by omega, Or.inr ⟨rfl, rfl⟩⟩
  split_ifs with hpq
  · exact (h p q).1 (hD.2 hpq)
  · exact (h p q).2 fun hd => hpq (hD.1 hd)

/-- The metric of vbamodule.c is zero outside. -/
theorem metric_all (n N : ℕ) (D : Arr2) (p q : ℕ) : metric n N D p q = if p < n ∧ q < n then ∑ k ∈ range N, D p k * D q k else 0 := by
  split_ifs with h
  · exact metric_val n N D h.1 h.2
  · unfold metric
    refine forUp_ind (fun _ (M : Arr2) => M p q = 0) (Nat.zero_le _) rfl ?_
    intro a M _ ha hM
    refine forUp_ind (fun _ (M : Arr2) => M p q = 0) (Nat.zero_le _) hM ?_
    intro b M _ hb hM
    unfold set2
    rw [if_neg (by rintro ⟨rfl, rfl⟩; exact h ⟨ha, hb⟩)]
    exact hM

theorem metricB_eq {gam g : ℕ → ℝ} {hgp hgm : ℕ → ℕ → ℝ} {nsin n : ℕ} (hf : Fine gam g hgp hgm nsin) : metricB nsin n g hgp hgm = .ok (metric (2 * nsin) n (sinusoids gam)) := by
  obtain ⟨M, e, h⟩ := metricB_spec (n := n) hf
  rw [e]
  congr 1
  ext p q
  rw [h, metric_all]
  rfl

/-! ## The rest -/

theorem forward_congr {n : ℕ} (L : Arr2) {P P' : Arr1} (h : ∀ a < n, P a = P' a) (A : Arr1) : forward n L P A = forward n L P' A := by
  unfold forward forUp
  have : ∀ (l : List ℕ), (∀ a ∈ l, a < n) → ∀ A : Arr1, l.foldl (fun s i => set1 s i (forDown i (fun b sum => sum - L i b * s b) (P i) / L i i)) A = l.foldl (fun s i => set1 s i (forDown i (fun b sum => sum - L i b * s b) (P' i) / L i i)) A := by
    intro l
    induction l with
    | nil => intros; rfl
    | cons a l ih =>
      intro hl A
      rw [List.foldl_cons, List.foldl_cons, h a (hl a (List.mem_cons_self ..))]
      exact ih (fun b hb => hl b (List.mem_cons_of_mem _ hb)) _
  refine this _ (fun a ha => ?_) A
  rw [List.mem_range'_1] at ha
  omega

/-- The results do not depend on projections outside of the array. -/
theorem analyse_congr (junk : Arr1) {n : ℕ} (G : Arr2) {P P' : Arr1} (h : ∀ a < n, P a = P' a) : analyse junk n G P = (match analyse junk n G P' with
    | .error e => .error e
    | .ok r => .ok { r with P := P }) := by
  unfold analyse
  cases chol n ⟨G, junk, 1⟩ with
  | error e => rfl
  | ok s =>
    simp only [forward_congr _ h]
    congr 2
    rw [forUp_add 0 n (Nat.zero_le _), forUp_add 0 n (Nat.zero_le _)]
    congr 1
    refine sum_congr rfl fun a ha => ?_
    rw [mem_Ico] at ha
    rw [h a ha.2]

theorem analyse_metric (junk : Arr1) (n N : ℕ) (D : Arr2) (d : Arr1) : analyse junk n (metric n N D) (proj n N D d) = metricAnalysis junk n N N D d := by
  unfold metricAnalysis analyse
  rw [if_neg (by simp)]
  rfl

end Verif.Bha
