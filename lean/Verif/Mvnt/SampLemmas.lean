import Verif.Mvnt.CholLemmas

/-!
# Lemmas about samples and densities
-/

set_option linter.unusedSectionVars false

namespace Verif.Mvnt

open Finset Matrix

theorem up_congr {f g : ℕ → ℝ} {m : ℕ} {x : ℝ} (h : ∀ k < m, f k = g k) : up f m x = up g m x := by
  rw [up_eq, up_eq]; congr 1; exact sum_congr rfl fun k hk => h k (mem_range.1 hk)

theorem sampGo_eq (mu : Arr) (L : Arr2) (m : ℕ) (s : Arr) (q : ℝ) :
    sampGo mu L m (s, q) = (fun a => if a < m then mu a + ∑ k ∈ range (a + 1), L a k * s k else s a, q + ∑ i ∈ range m, s i ^ 2) := by
  induction m generalizing s q with
  | zero => simp [sampGo]
  | succ i ih =>
    rw [sampGo, ih]
    have hlow : ∀ k, k < i → ∀ x, set1 s i x k = s k := fun k hk x => by simp [set1, hk.ne]
    ext a
    · simp only []
      rcases lt_trichotomy a i with h | h | h
      · rw [if_pos h, if_pos (by omega)]
        congr 1
        refine sum_congr rfl fun k hk => ?_
        rw [hlow k (by have := mem_range.1 hk; omega)]
      · subst h
        rw [if_neg (by omega), if_pos (by omega), up_eq, sum_range_succ]
        simp only [set1, if_true]; ring
      · rw [if_neg (by omega), if_neg (by omega)]
        simp [set1, h.ne']
    · simp only []
      rw [sum_range_succ, sum_congr rfl fun k hk => by rw [hlow k (mem_range.1 hk)]]
      ring

theorem mvnsampq_eq (n : ℕ) (mu : Arr) (L : Arr2) (s : Arr) :
    mvnsampq n mu L s = (fun a => if a < n then mu a + ∑ k ∈ range (a + 1), L a k * s k else s a, ∑ i ∈ range n, s i ^ 2) := by
  rw [mvnsampq, sampGo_eq, zero_add]

theorem mulVec_vec (n : ℕ) (L : Arr2) (hz : ∀ i j : Fin n, i < j → mat n L i j = 0) (s : Arr) (a : Fin n) :
    (mat n L *ᵥ vec n s) a = ∑ k ∈ range ((a : ℕ) + 1), L a k * s k := by
  change ∑ k : Fin n, L a k * s k = _
  rw [Fin.sum_univ_eq_sum_range (fun k => L a k * s k) n]
  symm
  apply sum_subset
  · intro t ht; rw [mem_range] at *; have := a.2; omega
  · intro t ht ht'
    rw [mem_range] at ht ht'
    have := hz a ⟨t, ht⟩ (by rw [Fin.lt_def]; simp; omega)
    rw [show L a t = 0 from this, zero_mul]

/-- A sample is the mean plus the decomposition times the deviates. -/
theorem samp_vec (n : ℕ) (mu : Arr) (L : Arr2) (hz : ∀ i j : Fin n, i < j → mat n L i j = 0) (s : Arr) :
    vec n (mvnsamp n mu L s) = vec n mu + mat n L *ᵥ vec n s := by
  ext a
  rw [Pi.add_apply, mulVec_vec n L hz s a]
  simp [vec, mvnsamp, mvnsampq_eq]

theorem sampq_snd (n : ℕ) (mu : Arr) (L : Arr2) (s : Arr) : (mvnsampq n mu L s).2 = vec n s ⬝ᵥ vec n s := by
  rw [mvnsampq_eq]
  change ∑ i ∈ range n, s i ^ 2 = ∑ k : Fin n, s k * s k
  rw [Fin.sum_univ_eq_sum_range (fun k => s k * s k) n]
  exact sum_congr rfl fun k _ => sq (s k)

/-! ## Substitutions -/

theorem fwd_spec (L : Arr2) (m : ℕ) (w : Arr) (hd : ∀ k < m, L k k ≠ 0) :
    (∀ a < m, ∑ k ∈ range (a + 1), L a k * fwd L m w k = w a) ∧ ∀ a, m ≤ a → fwd L m w a = w a := by
  induction m with
  | zero => simp [fwd]
  | succ i ih =>
    obtain ⟨h1, h2⟩ := ih fun k hk => hd k (by omega)
    rw [fwd]
    set v := fwd L i w with hv
    have hlow : ∀ k, k < i → ∀ x, set1 v i x k = v k := fun k hk x => by simp [set1, hk.ne]
    refine ⟨fun a ha => ?_, fun a ha => ?_⟩
    · rcases Nat.lt_succ_iff_lt_or_eq.1 ha with ha | rfl
      · rw [← h1 a ha]
        refine sum_congr rfl fun k hk => ?_
        rw [hlow k (by have := mem_range.1 hk; omega)]
      · rw [sum_range_succ, sum_congr rfl fun k hk => by rw [hlow k (mem_range.1 hk)], down_eq]
        have hd' := hd a (by omega)
        simp only [set1, if_true]
        rw [h2 a le_rfl]
        field_simp
        ring
    · simp only [set1]; rw [if_neg (by omega)]; exact h2 a (by omega)

theorem foldl_sub (f : ℕ → ℝ) (l : List ℕ) (z : ℝ) : l.foldl (fun z k => z - f k) z = z - (l.map f).sum := by
  induction l generalizing z with
  | nil => simp
  | cons k l ih => rw [List.foldl_cons, ih]; simp; ring

theorem range'_map_sum (f : ℕ → ℝ) (i n : ℕ) : ((List.range' i (n - i)).map f).sum = ∑ k ∈ Ico i n, f k := by
  rw [sum_Ico_eq_sum_range]
  rw [List.range'_eq_map_range, List.map_map]
  induction n - i with
  | zero => simp
  | succ m ih => rw [List.range_succ, List.map_append, List.sum_append, ih, sum_range_succ]; simp

theorem bwd_spec (n : ℕ) (L : Arr2) (m : ℕ) (hm : m ≤ n) (w : Arr) (hd : ∀ k < m, L k k ≠ 0) :
    (∀ a < m, ∑ k ∈ Ico a n, L k a * bwd n L m w k = w a) ∧ ∀ a, m ≤ a → bwd n L m w a = w a := by
  induction m generalizing w with
  | zero => simp [bwd]
  | succ i ih =>
    rw [bwd]
    simp only [foldl_sub, range'_map_sum]
    set x := (w i - ∑ k ∈ Ico (i + 1) n, L k i * w k) / L i i with hx
    obtain ⟨h1, h2⟩ := ih (by omega) (set1 w i x) fun k hk => hd k (by omega)
    have hhigh : ∀ a, i < a → set1 w i x a = w a := fun a ha => by simp [set1, ha.ne']
    refine ⟨fun a ha => ?_, fun a ha => by rw [h2 a (by omega), hhigh a (by omega)]⟩
    rcases Nat.lt_succ_iff_lt_or_eq.1 ha with ha | rfl
    · rw [h1 a ha]; simp [set1, ha.ne]
    · rw [sum_eq_sum_Ico_succ_bot (by omega), h2 a le_rfl,
        sum_congr rfl fun k hk => by rw [h2 k (by have := (mem_Ico.1 hk).1; omega), hhigh k (by have := (mem_Ico.1 hk).1; omega)]]
      have hd' := hd a (by omega)
      simp only [set1, if_true]
      rw [hx]
      field_simp
      ring

/-- The quadratic form is that of the inverse. -/
theorem qform_eq {n : ℕ} {A : Matrix (Fin n) (Fin n) ℝ} {L : Arr2} (h : Factor n A (mat n L)) (x mu : Arr) :
    qform n x mu L = (vec n x - vec n mu) ⬝ᵥ A⁻¹ *ᵥ (vec n x - vec n mu) := by
  have hd : ∀ k < n, L k k ≠ 0 := fun k hk => (h.diag ⟨k, hk⟩).ne'
  set d : Arr := fun i => x i - mu i with hdd
  obtain ⟨f1, _⟩ := fwd_spec L n d hd
  set u := fwd L n d with hu
  obtain ⟨b1, _⟩ := bwd_spec n L n le_rfl u hd
  set w := bwd n L n u with hw
  have hf : mat n L *ᵥ vec n u = vec n d := by
    ext a; rw [mulVec_vec n L h.upper]; exact f1 a a.2
  have hb : (mat n L)ᵀ *ᵥ vec n w = vec n u := by
    ext a
    change ∑ k : Fin n, L k a * w k = u a
    rw [← b1 a a.2, Fin.sum_univ_eq_sum_range (fun k => L k a * w k) n]
    symm
    apply sum_subset
    · intro t ht; rw [mem_range]; exact (mem_Ico.1 ht).2
    · intro t ht ht'
      rw [mem_range] at ht
      rw [mem_Ico] at ht'
      rw [show L t a = 0 from h.upper ⟨t, ht⟩ a (by rw [Fin.lt_def]; simp; omega), zero_mul]
  have hA : A *ᵥ vec n w = vec n d := by rw [← h.eq, ← Matrix.mulVec_mulVec, hb, hf]
  have hAu : IsUnit A.det := by rw [h.det_sq]; exact (pow_pos h.det_pos 2).ne'.isUnit
  have hwA : A⁻¹ *ᵥ vec n d = vec n w := by rw [← hA, Matrix.mulVec_mulVec, Matrix.nonsing_inv_mul _ hAu, Matrix.one_mulVec]
  have hvd : vec n x - vec n mu = vec n d := by ext a; rfl
  rw [hvd, hwA, qform, up_eq, zero_add]
  change _ = ∑ k : Fin n, d k * w k
  rw [Fin.sum_univ_eq_sum_range (fun k => d k * w k) n]

/-- The quadratic form of a sample is the sum of the squares of the deviates. -/
theorem quad_factor {n : ℕ} {A M : Matrix (Fin n) (Fin n) ℝ} (h : Factor n A M) (z : Fin n → ℝ) : (M *ᵥ z) ⬝ᵥ A⁻¹ *ᵥ (M *ᵥ z) = z ⬝ᵥ z := by
  have hu : IsUnit M.det := h.det_pos.ne'.isUnit
  have hut : IsUnit Mᵀ.det := by rw [Matrix.det_transpose]; exact hu
  rw [← h.eq, Matrix.mul_inv_rev, Matrix.mulVec_mulVec, Matrix.mul_assoc, Matrix.nonsing_inv_mul _ hu, Matrix.mul_one,
    ← Matrix.transpose_nonsing_inv, Matrix.mulVec_transpose, dotProduct_comm, ← Matrix.dotProduct_mulVec, Matrix.mulVec_mulVec, Matrix.nonsing_inv_mul _ hu, Matrix.one_mulVec]

end Verif.Mvnt
