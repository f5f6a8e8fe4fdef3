import Verif.Integrate.SymMoments
import Verif.Integrate.AdaptProps
import Mathlib.MeasureTheory.Integral.Pi
import Mathlib.Algebra.MvPolynomial.Degrees

/-!
# Symmetric rules (C92, C93)

Definitions from other files that are part of statements: the model in `SymRule` and `Adapt`, and `E` and `nod` from `SymMath`.
-/

set_option linter.unusedSectionVars false

namespace Verif.SymRl

open Finset Verif.Adapt

/-! ## Helper lemmas -/

theorem ofFuel_eq {α : Type*} [Zero α] {r : ℕ → Option α} {v : α} {N : ℕ} (h : ∀ fuel ≥ N, r fuel = some v) : ofFuel r = v := by
  have hex : ∃ v N, ∀ fuel ≥ N, r fuel = some v := ⟨v, N, h⟩
  unfold ofFuel
  rw [dif_pos hex]
  obtain ⟨N', h'⟩ := hex.choose_spec
  have h1 := h (max N N') (le_max_left _ _)
  have h2 := h' (max N N') (le_max_right _ _)
  rw [h1] at h2
  exact (Option.some.inj h2).symm

theorem T_congr {K : Type*} [Field K] (g : ℕ → K) : ∀ (cs hs : List K) (ms : List ℕ) (f f' : List K → K), hs.length = cs.length → ms.length = cs.length →
    (∀ xs : List K, xs.length = cs.length → f xs = f' xs) → T g cs hs ms f = T g cs hs ms f'
  | [], [], [], f, f', _, _, h => by simpa [T] using h [] rfl
  | c :: cs, a :: hs, m :: ms, f, f', h1, h2, h => by
    simp only [T]
    rw [T_congr g cs hs ms (fun x => f ((c + g m * a) :: x)) (fun x => f' ((c + g m * a) :: x)) (by simpa using h1) (by simpa using h2) (fun xs hx => h _ (by simp [hx])),
      T_congr g cs hs ms (fun x => f ((c - g m * a) :: x)) (fun x => f' ((c - g m * a) :: x)) (by simpa using h1) (by simpa using h2) (fun xs hx => h _ (by simp [hx]))]
  | [], _ :: _, _, _, _, h1, _, _ => by simp at h1
  | [], [], _ :: _, _, _, _, h2, _ => by simp at h2
  | _ :: _, [], _, _, _, h1, _, _ => by simp at h1
  | _ :: _, _ :: _, [], _, _, _, h2, _ => by simp at h2

theorem V_congr_f {K : Type*} [Field K] (P : ℕ → ℕ → K) (g : ℕ → K) (cs hs : List K) (D : ℕ) {f f' : List K → K} (hl : hs.length = cs.length)
    (h : ∀ xs : List K, xs.length = cs.length → f xs = f' xs) : V P g cs hs D f = V P g cs hs D f' := by
  unfold V
  refine sum_congr rfl fun d _ => sum_congr rfl fun nr _ => sum_congr rfl fun l hl' => ?_
  rw [T_congr g cs hs l f f' hl (mem_Ls.1 hl').1 h]

open Polynomial in
theorem prodF_ofFn : ∀ (n : ℕ) (e : Fin n → ℕ) (c h : Fin n → ℝ) (xs : List ℝ), xs.length = n →
    prodF (List.ofFn fun i => (⟨X ^ e i, c i, h i⟩ : Ax)) xs = ∏ i : Fin n, xs.getD i 0 ^ e i
  | 0, _, _, _, xs, _ => by simp [prodF]
  | n + 1, e, c, h, [], hl => by simp at hl
  | n + 1, e, c, h, x :: xs, hl => by
    rw [List.ofFn_succ, prodF, prodF_ofFn n (fun i => e i.succ) (fun i => c i.succ) (fun i => h i.succ) xs (by simpa using hl), Fin.prod_univ_succ]
    simp

/-- The integral of a polynomial over a box, axis by axis. -/
noncomputable def boxInt {n : ℕ} (p : MvPolynomial (Fin n) ℝ) (c h : Fin n → ℝ) : ℝ := ∑ m ∈ p.support, p.coeff m * ∏ i, ∫ x in (c i - h i)..(c i + h i), x ^ m i

open Polynomial in
/-- The rule of order `D` is exact for polynomials of degree up to `2 * D + 1`. -/
theorem V_poly {n : ℕ} {g : ℕ → ℝ} {D : ℕ} (hg : Set.InjOn (fun i => g i ^ 2) (Set.Iic D)) (p : MvPolynomial (Fin n) ℝ) (hp : p.totalDegree ≤ 2 * D + 1) (c h : Fin n → ℝ) :
    V (wt fun i => g i ^ 2) g (List.ofFn c) (List.ofFn h) D (fun xs => MvPolynomial.eval (fun i : Fin n => xs.getD i 0) p) = boxInt p c h := by
  unfold boxInt
  simp only [MvPolynomial.eval_eq']
  rw [V_sum]
  refine sum_congr rfl fun m hm => ?_
  rw [V_mul]
  congr 1
  have hdeg : ∑ i, m i / 2 ≤ D := by
    have h1 := MvPolynomial.le_totalDegree hm
    rw [Finsupp.sum_fintype _ _ (by simp)] at h1
    have h2 : 2 * ∑ i, m i / 2 ≤ ∑ i, m i := by
      rw [mul_sum]
      exact sum_le_sum fun i _ => by omega
    omega
  have := V_exact hg (List.ofFn fun i : Fin n => ((⟨X ^ m i, c i, h i⟩ : Ax), m i / 2))
    (by
      intro a ha
      rw [List.mem_ofFn] at ha
      obtain ⟨i, rfl⟩ := ha
      dsimp only
      rw [natDegree_X_pow]
      omega)
    (by
      rw [List.map_ofFn, List.sum_ofFn]
      exact hdeg)
  rw [List.map_ofFn, List.map_ofFn, List.map_ofFn, List.map_ofFn, List.prod_ofFn] at this
  simp only [Function.comp_def, eval_pow, eval_X] at this
  rw [← this]
  refine V_congr_f _ _ _ _ _ (by simp) fun xs hx => ?_
  rw [List.length_ofFn] at hx
  rw [prodF_ofFn n (fun i => m i) c h xs hx]

/-- The integral over the box, axis by axis, is the integral. -/
theorem boxInt_eq {n : ℕ} (p : MvPolynomial (Fin n) ℝ) {a b : Fin n → ℝ} (hab : a ≤ b) :
    boxInt p (fun i => a i + (b i - a i) * (1 / 2)) (fun i => (b i - a i) * (1 / 2)) = ∫ x in Set.Icc a b, MvPolynomial.eval x p := by
  unfold boxInt
  have h1 : (MeasureTheory.volume.restrict (Set.Icc a b) : MeasureTheory.Measure (Fin n → ℝ)) = MeasureTheory.Measure.pi fun i => MeasureTheory.volume.restrict (Set.Icc (a i) (b i)) := by
    rw [← Set.pi_univ_Icc, MeasureTheory.volume_pi, MeasureTheory.Measure.restrict_pi_pi]
  have hcont : ∀ q : (Fin n → ℝ) → ℝ, Continuous q → MeasureTheory.IntegrableOn q (Set.Icc a b) := fun q hq => hq.continuousOn.integrableOn_compact isCompact_Icc
  simp only [MvPolynomial.eval_eq']
  rw [MeasureTheory.integral_finsetSum]
  · refine sum_congr rfl fun m _ => ?_
    rw [MeasureTheory.integral_const_mul, h1, MeasureTheory.integral_fintype_prod_eq_prod (f := fun i x => x ^ m i)]
    congr 1
    refine prod_congr rfl fun i _ => ?_
    rw [show a i + (b i - a i) * (1 / 2) - (b i - a i) * (1 / 2) = a i by ring, show a i + (b i - a i) * (1 / 2) + (b i - a i) * (1 / 2) = b i by ring,
      intervalIntegral.integral_of_le (hab i), MeasureTheory.integral_Icc_eq_integral_Ioc]
  · intro m _
    refine hcont _ (continuous_const.mul (continuous_finsetProd _ fun i _ => (continuous_apply i).pow _))

/-- What is asked of the generators, when the first `N` are used: the first is zero, the others are positive and distinct, and moments that are set to zero are zero. -/
structure Gens (g : ℕ → ℝ) (tol : ℝ) (N : ℕ) : Prop where
  zero : g 0 = 0
  pos : ∀ i < N, i ≠ 0 → 0 < g i
  inj : Set.InjOn g (Set.Iio N)
  tol : ∀ q < N, E (nod (fun i => g i ^ 2) q) ^ 2 < (tol * 2) ^ 2 → E (nod (fun i => g i ^ 2) q) = 0

theorem Gens.nonneg {g : ℕ → ℝ} {tol : ℝ} {N : ℕ} (h : Gens g tol N) : ∀ i < N, 0 ≤ g i := fun i hi => by
  by_cases h0 : i = 0
  · rw [h0, h.zero]
  · exact (h.pos i hi h0).le

theorem Gens.sq {g : ℕ → ℝ} {tol : ℝ} {N : ℕ} (h : Gens g tol N) : Set.InjOn (fun i => g i ^ 2) (Set.Iio N) := fun i hi j hj hij =>
  h.inj hi hj ((pow_left_inj₀ (h.nonneg i hi) (h.nonneg j hj) (by norm_num)).1 hij)

theorem Gens.mono {g : ℕ → ℝ} {tol : ℝ} {N N' : ℕ} (h : Gens g tol N) (hN : N' ≤ N) : Gens g tol N' :=
  ⟨h.zero, fun i hi => h.pos i (by omega), h.inj.mono (Set.Iio_subset_Iio hN), fun q hq => h.tol q (by omega)⟩

/-- There are at most 200 partitions into at most 20 parts with a sum below 12. -/
theorem numsms_ok (S : ℕ) (h1 : 1 ≤ S) (h2 : S ≤ 20) : 12 ≤ (Mseq S 200).sum := by
  have : ∀ S ∈ Finset.Icc 1 20, 12 ≤ (nxprt^[200] (List.replicate S 0)).sum := by decide +kernel
  exact this S (mem_Icc.2 ⟨h1, h2⟩)

/-- The condition on the variables before a call, and what holds after it. -/
structure Ready (n : ℕ) (g : ℕ → ℝ) (f : (ℕ → ℝ) → ℝ) (c h : Fin n → ℝ) (D : ℕ) (s : St ℝ) : Prop where
  width : s.hw = List.ofFn h
  sums : ∀ j, (Mseq n j).sum < D → s.weghts (j + 1) ≠ 0 → s.fulsms (j + 1) = ∑ x ∈ Pm (Mseq n j), T g (List.ofFn c) (List.ofFn h) x (fun xs => f (vec xs))
  vals : ∀ m, 1 ≤ m → m ≤ D → s.intvls m = V (wt fun i => g i ^ 2) g (List.ofFn c) (List.ofFn h) (m - 1) (fun xs => f (vec xs))

theorem symrl_spec {n : ℕ} (hn : 1 ≤ n) (hn' : n ≤ 20) {g : ℕ → ℝ} {tol : ℝ} {maxord : ℕ} (hm' : maxord ≤ 12) (hg : Gens g tol maxord) (f : (ℕ → ℝ) → ℝ) (c : Fin n → ℝ) {h : Fin n → ℝ} (hh : ∀ i, 0 ≤ h i)
    {minord : ℕ} (hm : minord < maxord) {s : St ℝ} (hs : Ready n g f c h minord s) :
    ∃ s' N, (∀ fuel ≥ N, symrl fuel n g tol (List.ofFn c) f minord maxord 200 s = some (0, s')) ∧ Ready n g f c h maxord s' := by
  obtain ⟨R, hR, hP⟩ := rows_spec hg.sq hg.nonneg hg.tol
  set e : Fixed ℝ := ⟨List.ofFn c, g, prd R, f, 200⟩ with he
  have H : Setup e n (List.ofFn h) maxord := by
    refine ⟨by omega, by simp [he], by simp, ?_, hg.nonneg, fun m hm => ?_⟩
    · intro x hx
      rw [List.mem_ofFn] at hx
      obtain ⟨i, rfl⟩ := hx
      exact hh i
    · constructor
      · intro h0
        by_contra hc
        exact (hg.pos m hm hc).ne' h0
      · rintro rfl
        exact hg.zero
  set s1 : St ℝ := if minord = 0 then { s with intcls := 0 } else s with hs1
  have e1 : s1.hw = s.hw ∧ s1.weghts = s.weghts ∧ s1.fulsms = s.fulsms ∧ s1.intvls = s.intvls := by
    rw [hs1]; split_ifs <;> exact ⟨rfl, rfl, rfl, rfl⟩
  have hV : ∀ m, 1 ≤ m → m ≤ maxord → V e.P e.g e.c (List.ofFn h) (m - 1) (fun xs => e.f (vec xs)) = V (wt fun i => g i ^ 2) g (List.ofFn c) (List.ofFn h) (m - 1) (fun xs => f (vec xs)) :=
    fun m h1 h2 => V_congr hP g _ _ (by omega) _
  obtain ⟨s', N, k1, k2, k3⟩ := ordersLoop_spec H (by have := numsms_ok n hn hn'; simp only [he]; omega) (maxord - minord) minord s1 (by omega)
    ⟨e1.1.trans hs.width, fun j hj => by rw [e1.2.1, e1.2.2.1]; exact hs.sums j hj⟩ (fun m h1 h2 => by rw [e1.2.2.2, hV m h1 (by omega)]; exact hs.vals m h1 h2)
  rw [show minord + (maxord - minord) = maxord by omega] at k2 k3
  refine ⟨s', N, fun fuel hf => ?_, k2.width, k2.sums, fun m h1 h2 => by rw [k3 m h1 h2, hV m h1 h2]⟩
  unfold symrl
  rw [if_neg (by omega), if_neg (by omega), if_neg (by omega)]
  simp only
  rw [hR]
  simp only
  rw [k1 fuel hf]
  rfl

/-- Before the first call. -/
theorem ready_zero {n : ℕ} (g : ℕ → ℝ) (f : (ℕ → ℝ) → ℝ) (c h : Fin n → ℝ) (s : St ℝ) (hs : s.hw = List.ofFn h) : Ready n g f c h 0 s :=
  ⟨hs, fun j hj => absurd hj (by omega), fun m h1 h2 => absurd h1 (by omega)⟩

theorem Ready.exact {n : ℕ} {g : ℕ → ℝ} {tol : ℝ} {N : ℕ} (hg : Gens g tol N) {p : MvPolynomial (Fin n) ℝ} {c h : Fin n → ℝ} {s : St ℝ}
    (hs : Ready n g (fun x => MvPolynomial.eval (fun i : Fin n => x (i + 1)) p) c h N s) {m : ℕ} (h1 : 1 ≤ m) (h2 : m ≤ N) (hp : p.totalDegree ≤ 2 * m - 1) : s.intvls m = boxInt p c h := by
  rw [hs.vals m h1 h2, ← V_poly (D := m - 1) (hg.sq.mono fun i hi => by simp only [Set.mem_Iic, Set.mem_Iio] at *; omega) p (by omega) c h]
  rfl

theorem calls_spec {n : ℕ} (hn : 1 ≤ n) (hn' : n ≤ 20) {g : ℕ → ℝ} {tol : ℝ} (hg : Gens g tol 12) (f : (ℕ → ℝ) → ℝ) (c : Fin n → ℝ) {h : Fin n → ℝ} (hh : ∀ i, 0 ≤ h i)
    {s : St ℝ} (hs : s.hw = List.ofFn h) : ∀ k ≤ 8, ∃ s' N, (∀ fuel ≥ N, calls fuel n g tol (List.ofFn c) f s k = some (0, 4 + k, s')) ∧ Ready n g f c h (4 + k) s'
  | 0, _ => by
    obtain ⟨s', N, h1, h2⟩ := symrl_spec hn hn' (maxord := 4) (by norm_num) (hg.mono (by norm_num)) f c hh (by norm_num) (ready_zero g f c h s hs)
    refine ⟨s', N, fun fuel hf => ?_, h2⟩
    rw [calls, h1 fuel hf]
    rfl
  | k + 1, hk => by
    obtain ⟨s1, N1, h1, h2⟩ := calls_spec hn hn' hg f c hh hs k (by omega)
    obtain ⟨s', N, h3, h4⟩ := symrl_spec hn hn' (maxord := 4 + (k + 1)) (by omega) (hg.mono (by omega)) f c hh (by omega) h2
    refine ⟨s', max N1 N, fun fuel hf => ?_, h4⟩
    rw [calls, h1 fuel (le_trans (le_max_left _ _) hf)]
    simp only
    rw [if_neg (by norm_num), h3 fuel (le_trans (le_max_right _ _) hf)]
    rfl

theorem range_map_ofFn {α : Type*} (n : ℕ) (f : ℕ → α) : (List.range n).map f = List.ofFn fun i : Fin n => f i := by
  rw [List.ofFn_eq_map, ← List.map_coe_finRange_eq_range, List.map_map]
  rfl

/-- The values of the rules for a box are exact. -/
theorem symOf_exact {n : ℕ} (hn : 1 ≤ n) (hn' : n ≤ 20) {g : ℕ → ℝ} {tol : ℝ} (hg : Gens g tol 12) (s : St ℝ) (p : MvPolynomial (Fin n) ℝ) (b : Box ℝ) (hb : ∀ j, 1 ≤ j → j ≤ n → 0 ≤ b.width j)
    {m : ℕ} (h1 : 1 ≤ m) (h2 : m ≤ 12) (hp : p.totalDegree ≤ 2 * m - 1) :
    (symOf n g tol s (fun x => MvPolynomial.eval (fun i : Fin n => x (i + 1)) p) b).val m = boxInt p (fun i => b.center (i + 1)) (fun i => b.width (i + 1)) := by
  have hh : ∀ i : Fin n, 0 ≤ b.width (i + 1) := fun i => hb _ (by omega) (by omega)
  obtain ⟨s', N, k1, k2⟩ := calls_spec hn hn' hg (fun x => MvPolynomial.eval (fun i : Fin n => x (i + 1)) p) (fun i => b.center (i + 1)) hh
    (s := { s with hw := (List.range n).map fun j => b.width (j + 1) }) (range_map_ofFn n _) (m - 4) (by omega)
  unfold symOf
  simp only
  rw [range_map_ofFn n fun j => b.center (j + 1), ofFuel_eq (v := s'.intvls m) (N := N)]
  · exact k2.exact (hg.mono (by omega)) h1 (by omega) hp
  · intro fuel hf
    rw [k1 fuel hf]
    rfl

/-- Dividing a box divides the integral. -/
theorem boxInt_halves {n : ℕ} (p : MvPolynomial (Fin n) ℝ) (b : Box ℝ) {i : ℕ} (h1 : 1 ≤ i) (h2 : i ≤ n) :
    boxInt p (fun i => b.center (i + 1)) (fun i => b.width (i + 1)) =
      boxInt p (fun j => (halves b i).1.center (j + 1)) (fun j => (halves b i).1.width (j + 1)) + boxInt p (fun j => (halves b i).2.center (j + 1)) (fun j => (halves b i).2.width (j + 1)) := by
  unfold boxInt
  rw [← sum_add_distrib]
  refine sum_congr rfl fun m _ => ?_
  rw [← mul_add]
  congr 1
  have hi : i - 1 < n := by omega
  have key : ∀ c w : ℕ → ℝ, (∀ j, j ≠ i → c j = b.center j ∧ w j = b.width j) →
      ∏ j : Fin n, ∫ x in (c (j + 1) - w (j + 1))..(c (j + 1) + w (j + 1)), x ^ m j =
        (∫ x in (c i - w i)..(c i + w i), x ^ m ⟨i - 1, hi⟩) * ∏ j ∈ univ.erase (⟨i - 1, hi⟩ : Fin n), ∫ x in (b.center (j + 1) - b.width (j + 1))..(b.center (j + 1) + b.width (j + 1)), x ^ m j := by
    intro c w hcw
    rw [← Finset.mul_prod_erase univ _ (mem_univ (⟨i - 1, hi⟩ : Fin n))]
    congr 1
    · simp only [Nat.sub_add_cancel h1]
    · refine prod_congr rfl fun j hj => ?_
      have hj' : (j : ℕ) + 1 ≠ i := by
        intro h
        refine (Finset.ne_of_mem_erase hj) (Fin.ext ?_)
        simp only
        omega
      rw [(hcw _ hj').1, (hcw _ hj').2]
  rw [key b.center b.width fun j _ => ⟨rfl, rfl⟩]
  unfold halves
  simp only
  rw [key (put b.center i (b.center i - b.width i / 2)) (put b.width i (b.width i / 2)) fun j hj => ⟨put_ne _ _ hj, put_ne _ _ hj⟩,
    key (put b.center i (b.center i + b.width i / 2)) (put b.width i (b.width i / 2)) fun j hj => ⟨put_ne _ _ hj, put_ne _ _ hj⟩, ← add_mul]
  congr 1
  simp only [put_self]
  rw [show b.center i - b.width i / 2 - b.width i / 2 = b.center i - b.width i by ring, show b.center i - b.width i / 2 + b.width i / 2 = b.center i by ring,
    show b.center i + b.width i / 2 - b.width i / 2 = b.center i by ring, show b.center i + b.width i / 2 + b.width i / 2 = b.center i + b.width i by ring]
  rw [intervalIntegral.integral_add_adjacent_intervals] <;> exact (continuous_pow _).intervalIntegrable _ _

/-- In every state of the loop the estimate is the integral. -/
theorem reach_exact {n : ℕ} {g : ℕ → ℝ} {tol : ℝ} (hg : Gens g tol 12) (arr : St ℝ) (init : ℕ → Rec ℝ) (p : MvPolynomial (Fin n) ℝ) (hp : p.totalDegree ≤ 7) (d1 : 1 ≤ n) (d2 : n ≤ 20) {lower upper : ℕ → ℝ}
    (hab : ∀ j, 1 ≤ j → j ≤ n → lower j ≤ upper j) {relacc : ℝ} {s : Adapt.St ℝ}
    (hr : Reach (pyArgs 100 (symOf n g tol arr) (fun x => MvPolynomial.eval (fun i : Fin n => x (i + 1)) p) n lower upper relacc) init s) :
    s.finest = ∫ x in Set.Icc (fun i : Fin n => lower (i + 1)) (fun i => upper (i + 1)), MvPolynomial.eval x p := by
  set f : (ℕ → ℝ) → ℝ := fun x => MvPolynomial.eval (fun i : Fin n => x (i + 1)) p with hf
  have hgd : Good n (bsrl (symOf n g tol arr) n f) := bsrl_good _ (by omega) f
  have hi := inv_reach hgd hr
  have hw : ∀ j, 1 ≤ j → j ≤ n → 0 ≤ (whole (pyArgs 100 (symOf n g tol arr) f n lower upper relacc)).width j := fun j j1 j2 => by
    have := hab j j1 j2
    simp only [whole, pyArgs]
    linarith
  have h1 : s.finest = ∑ k ∈ Icc 1 s.n, boxInt p (fun i => (s.heap k).box.center (i + 1)) (fun i => (s.heap k).box.width (i + 1)) := by
    rw [hi.val]
    refine sum_congr rfl fun k hk => ?_
    rw [mem_Icc] at hk
    obtain ⟨⟨m, e', d, -, q2, -⟩, q3⟩ := hi.recs k hk.1 hk.2
    obtain ⟨-, o1, o2, -⟩ := orders_spec (symOf n g tol arr f (s.heap k).box) m e' 8 4
    rw [q2]
    exact symOf_exact (m := (orders (symOf n g tol arr f (s.heap k).box) m e' 8 4).2) (by omega) d2 hg arr p _ (q3 hw) (by omega) o2 (by omega)
  have h2 := tile_sum hgd hw (F := fun b => boxInt p (fun i => b.center (i + 1)) (fun i => b.width (i + 1)))
    (fun b i i1 i2 _ => boxInt_halves p b i1 i2) hr
  rw [h1, h2, ← boxInt_eq p (a := fun i : Fin n => lower (i + 1)) (b := fun i => upper (i + 1)) fun i => hab _ (by omega) (by omega)]
  rfl

/-! ## C92: exactness for polynomials -/

/-- C92.  For an integrand that is a polynomial, in 1 to 20 dimensions, and a box whose lower limits are not above the upper ones, the values that `SYMRL` computes for the orders up to `maxord` are found in the
array after a first call with success, whatever the arrays hold before; that of order `m` is the integral when the degree is at most `2 * m - 1`; and the half widths are as they were.  Missing: moments that
are smaller than the tolerance but not zero (`Gens.tol`), as those of the code's generators because of the rounding of their decimals. -/
theorem C92_rules_partial {n : ℕ} (hn : 1 ≤ n) (hn' : n ≤ 20) {g : ℕ → ℝ} {tol : ℝ} {maxord : ℕ} (hm : 1 ≤ maxord) (hm' : maxord ≤ 12) (hg : Gens g tol maxord) (p : MvPolynomial (Fin n) ℝ)
    {a b : Fin n → ℝ} (hab : ∀ i, a i ≤ b i) (s : St ℝ) (hs : s.hw = List.ofFn fun i => (b i - a i) * (1 / 2)) :
    ∃ s' N, (∀ fuel ≥ N, symrl fuel n g tol (List.ofFn fun i => a i + (b i - a i) * (1 / 2)) (fun x => MvPolynomial.eval (fun i : Fin n => x (i + 1)) p) 0 maxord 200 s = some (0, s')) ∧ s'.hw = s.hw ∧
      ∀ m, 1 ≤ m → m ≤ maxord → p.totalDegree ≤ 2 * m - 1 → s'.intvls m = ∫ x in Set.Icc a b, MvPolynomial.eval x p := by
  obtain ⟨s', N, h1, h2⟩ := symrl_spec hn hn' hm' hg (fun x => MvPolynomial.eval (fun i : Fin n => x (i + 1)) p) (fun i => a i + (b i - a i) * (1 / 2)) (h := fun i => (b i - a i) * (1 / 2))
    (fun i => by have := hab i; linarith) (by omega) (ready_zero _ _ _ _ s hs)
  exact ⟨s', N, h1, h2.width.trans hs.symm, fun m hm1 hm2 hp => by rw [h2.exact hg hm1 hm2 hp, boxInt_eq p hab]⟩

/-- C92.  When `adapt` returns a result for a polynomial of degree up to seven, and the lower limits are not above the upper ones, it is the integral.  Missing: as in `C92_rules_partial`. -/
theorem C92_adapt_partial {n : ℕ} {g : ℕ → ℝ} {tol : ℝ} (hg : Gens g tol 12) (arr : St ℝ) (init : ℕ → Rec ℝ) (p : MvPolynomial (Fin n) ℝ) (hp : p.totalDegree ≤ 7) {lower upper : ℕ → ℝ}
    (hab : ∀ j, 1 ≤ j → j ≤ n → lower j ≤ upper j) {fuel : ℕ} {relacc : ℝ} {mf : ℕ} {wf : ℝ} {v e : ℝ} {npts : ℕ}
    (h : adapt fuel (symOf n g tol arr) init (fun x => MvPolynomial.eval (fun i : Fin n => x (i + 1)) p) n lower upper relacc mf wf = some (.result v e npts)) :
    v = ∫ x in Set.Icc (fun i : Fin n => lower (i + 1)) (fun i => upper (i + 1)), MvPolynomial.eval x p := by
  obtain ⟨⟨d1, d2⟩, s, hr, hv, -, -, -, -⟩ := adapt_sub h
  rw [hv, reach_exact hg arr init p hp (by omega) d2 hab hr]

/-- C92.  For a polynomial of degree up to five, in 2 to 12 dimensions, with limits that are not reversed, an accuracy above zero, and an integral that is not zero, `adapt` returns the integral, with the error
zero.  Missing: as in `C92_rules_partial`. -/
theorem C92_result_partial {n : ℕ} (hn : 2 ≤ n) (hn' : n ≤ 12) {g : ℕ → ℝ} {tol : ℝ} (hg : Gens g tol 12) (arr : St ℝ) (init : ℕ → Rec ℝ) (p : MvPolynomial (Fin n) ℝ) (hp : p.totalDegree ≤ 5) {lower upper : ℕ → ℝ}
    (hab : ∀ j, 1 ≤ j → j ≤ n → lower j ≤ upper j) (h0 : (∫ x in Set.Icc (fun i : Fin n => lower (i + 1)) (fun i => upper (i + 1)), MvPolynomial.eval x p) ≠ 0) {relacc : ℝ} (hacc : 0 < relacc) (mf : ℕ) (wf : ℝ) :
    ∃ N, ∀ fuel ≥ N, ∃ npts, adapt fuel (symOf n g tol arr) init (fun x => MvPolynomial.eval (fun i : Fin n => x (i + 1)) p) n lower upper relacc mf wf =
      some (.result (∫ x in Set.Icc (fun i : Fin n => lower (i + 1)) (fun i => upper (i + 1)), MvPolynomial.eval x p) 0 npts) := by
  refine ⟨(adaptSizes n 100).2.1 + 2, fun fuel hf => ?_⟩
  set f : (ℕ → ℝ) → ℝ := fun x => MvPolynomial.eval (fun i : Fin n => x (i + 1)) p with hf'
  have hgd : Good n (bsrl (symOf n g tol arr) n f) := bsrl_good _ (by omega) f
  obtain ⟨s, hs⟩ := loop_ends (g := pyArgs 100 (symOf n g tol arr) f n lower upper relacc) hgd fuel (start (pyArgs 100 (symOf n g tol arr) f n lower upper relacc) init) (lt_of_le_of_lt (Nat.sub_le _ _) (by
    show (adaptSizes n 100).2.1 + 1 < fuel
    omega))
  obtain ⟨hr, hif⟩ := loop_reach _ _ _ .start hs
  have hv := reach_exact hg arr init p (by omega) (by omega) (by omega) hab hr
  have hi := inv_reach hgd hr
  have ht : s.toterr = 0 := by
    rw [hi.err]
    refine sum_eq_zero fun k hk => ?_
    rw [mem_Icc] at hk
    obtain ⟨⟨m, e', d, q1, -, -⟩, q3⟩ := hi.recs k hk.1 hk.2
    have hw := q3 fun j j1 j2 => by
      have := hab j j1 j2
      simp only [whole, pyArgs]
      linarith
    obtain ⟨-, o1, o2, o3⟩ := orders_spec (symOf n g tol arr f (s.heap k).box) m e' 8 4
    rw [q1]
    show (orders (symOf n g tol arr f (s.heap k).box) m e' 8 4).1 = 0
    rw [o3]
    unfold orderErr
    simp only
    rw [symOf_exact (m := (orders (symOf n g tol arr f (s.heap k).box) m e' 8 4).2) (by omega) (by omega) hg arr p _ hw (by omega) o2 (by omega),
      symOf_exact (m := (orders (symOf n g tol arr f (s.heap k).box) m e' 8 4).2 - 1) (by omega) (by omega) hg arr p _ hw (by omega) (by omega) (by omega)]
    simp
  have hrel : (relerr s).2 = 0 := by
    have h1 : |s.finest| ≠ 0 := by rw [hv]; exact abs_ne_zero.2 h0
    unfold relerr
    simp only
    rw [ht, if_pos le_rfl, if_pos h1, zero_div, if_neg (by norm_num)]
  have hif0 : ifail (pyArgs 100 (symOf n g tol arr) f n lower upper relacc) s = 0 := by
    by_contra hne
    have hc : ¬ ((relerr s).2 < relacc ∧ s.funcls ≥ (adaptSizes n 100).1) := fun hc => hne (by
      unfold ifail
      exact if_pos hc)
    have hlt : s.funcls < (adaptSizes n 100).1 := by
      by_contra hge
      exact hc ⟨by rw [hrel]; exact hacc, by omega⟩
    have hcalls : (2 * s.n - 1) * (4 * n) ≤ s.funcls := hi.calls (4 * n) fun b m e d => by
      show 4 * n ≤ _ + 4 * n
      omega
    have hn1 := hi.n1
    have hsn : s.n ≤ 49 := by
      by_contra hgt
      have h1 : 99 * (4 * n) ≤ (2 * s.n - 1) * (4 * n) := Nat.mul_le_mul_right _ (by omega)
      have h2 : (adaptSizes n 100).1 ≤ 99 * (4 * n) := by
        have : ∀ n ∈ Icc 2 12, (adaptSizes n 100).1 ≤ 99 * (4 * n) := by decide +kernel
        exact this n (mem_Icc.2 ⟨hn, hn'⟩)
      omega
    unfold ifail at hif
    dsimp only at hif
    rw [if_neg (show ¬ ((relerr s).2 < (pyArgs 100 (symOf n g tol arr) f n lower upper relacc).eps ∧ s.funcls ≥ (pyArgs 100 (symOf n g tol arr) f n lower upper relacc).minpts) from hc),
      if_neg, if_neg] at hif
    · omega
    · show ¬ s.n * (2 * n + 3) + (2 * n + 3) + 2 > ⌊(adaptSizes n 100).2.2⌋₊
      rw [lenwrk_eq]
      have : s.n * (2 * n + 3) ≤ 49 * (2 * n + 3) := Nat.mul_le_mul_right _ hsn
      omega
    · show ¬ s.funcls + s.funcls * (2 * n + 3) / (s.n * (2 * n + 3)) > (adaptSizes n 100).2.1
      rw [Nat.mul_div_mul_right _ _ (by omega)]
      have := Nat.div_le_self s.funcls s.n
      have h3 : (adaptSizes n 100).2.1 = 100 * (adaptSizes n 100).1 := rfl
      omega
  refine ⟨s.funcls, ?_⟩
  rw [adapt_eq]
  unfold adaptSub
  rw [if_neg, if_neg, hs]
  rotate_left
  · show ¬ (adaptSizes n 100).1 > (adaptSizes n 100).2.1
    have h3 : (adaptSizes n 100).2.1 = 100 * (adaptSizes n 100).1 := rfl
    omega
  · show ¬ (n < 2 ∨ n > 20)
    omega
  simp only [Option.map_some]
  rw [if_pos hif0, hrel, hv]

/-- integrate/adapt_py.f:343-347: the generators. -/
def codeG : ℕ → ℚ := fun i =>
  [0, 0.7745966692414833, 0.9604912687080202, 0.4342437493468025, 0.9938319632127549, 0.8884592328722569, 0.6211029467372263, 0.2233866864289668, 0.1, 0.2, 0.3, 0.4].getD i 0

/-- integrate/adapt_py.f:359-363: the tolerance for doubles. -/
def codeTol : ℚ := 100 * (2 * (1 / 2 ^ 53))

/-- C92.  With the lower limit above the upper one on an axis the value is wrong: the code's generators, `f x = 1`, two dimensions.  With half widths 1 and 1 the value of order 4 is 4, and with -1 and 1 it is not
-4 (nor 4), and the half widths are changed to 1 and 1. -/
theorem C92_reversed_violated : ∃ s₁ s₂ : St ℚ, symrl 1000 2 codeG codeTol [0, 0] (fun _ => 1) 0 4 200 ⟨0, 0, 0, 0, [1, 1]⟩ = some (0, s₁) ∧ s₁.intvls 4 = 4 ∧ s₁.hw = [1, 1] ∧
    symrl 1000 2 codeG codeTol [0, 0] (fun _ => 1) 0 4 200 ⟨0, 0, 0, 0, [-1, 1]⟩ = some (0, s₂) ∧ s₂.intvls 4 ≠ -4 ∧ s₂.intvls 4 ≠ 4 ∧ s₂.hw = [1, 1] := by
  have h1 : (symrl 1000 2 codeG codeTol [0, 0] (fun _ => 1) 0 4 200 ⟨0, 0, 0, 0, [1, 1]⟩).map (fun r => (r.1, decide (r.2.intvls 4 = 4), r.2.hw)) = some (0, true, [1, 1]) := by decide +kernel
  have h2 : (symrl 1000 2 codeG codeTol [0, 0] (fun _ => 1) 0 4 200 ⟨0, 0, 0, 0, [-1, 1]⟩).map (fun r => (r.1, decide (r.2.intvls 4 = -4), decide (r.2.intvls 4 = 4), r.2.hw)) =
    some (0, false, false, [1, 1]) := by decide +kernel
  rw [Option.map_eq_some_iff] at h1 h2
  obtain ⟨⟨f1, s1⟩, a1, b1⟩ := h1
  obtain ⟨⟨f2, s2⟩, a2, b2⟩ := h2
  simp only [Prod.mk.injEq, decide_eq_true_eq, decide_eq_false_iff_not] at b1 b2
  refine ⟨s1, s2, ?_, b1.2.1, b1.2.2, ?_, b2.2.1, b2.2.2.1, b2.2.2.2⟩
  · rw [a1, b1.1]
  · rw [a2, b2.1]

/-! ## The hypotheses can be met -/

/-- The code's generators, with no tolerance. -/
theorem codeG_gens : Gens (fun i => (codeG i : ℝ)) 0 12 := by
  refine ⟨by simp [codeG], fun i hi h0 => ?_, fun i hi j hj hij => ?_, fun q _ h => ?_⟩
  · have : ∀ i < 12, i ≠ 0 → 0 < codeG i := by decide +kernel
    exact_mod_cast this i hi h0
  · have : ∀ i < 12, ∀ j < 12, codeG i = codeG j → i = j := by decide +kernel
    exact this i hi j hj (by exact_mod_cast hij)
  · nlinarith [sq_nonneg (E (nod (fun i => (codeG i : ℝ) ^ 2) q))]

/-- The rule with three points of Gauss, where a moment is zero, with a tolerance. -/
example : Gens (fun i => if i = 0 then 0 else if i = 1 then √(3 / 5) else 1) (1 / 10) 3 := by
  have hlt : √(3 / 5) < 1 := by rw [Real.sqrt_lt' one_pos]; norm_num
  have hpos : 0 < √(3 / 5 : ℝ) := by positivity
  refine ⟨by simp, fun i hi h0 => ?_, ?_, fun q hq h => ?_⟩
  · interval_cases i <;> simp_all
  · intro i hi j hj hij
    simp only [Set.mem_Iio] at hi hj
    interval_cases i <;> interval_cases j <;> norm_num [-Real.sqrt_div', -Real.sqrt_div] at hij <;> first | rfl | linarith | (norm_num at hlt; linarith)
  · have n0 : ∀ u, nod u 0 = 1 := fun u => by simp [nod]
    interval_cases q
    · rw [n0] at h
      norm_num [E] at h
    · rw [nod_succ, n0] at h
      norm_num [E] at h
    · rw [nod_succ, nod_succ, n0]
      have e : ∀ x : ℝ, x ^ 2 * x ^ 2 = x ^ 4 := fun x => by ring
      norm_num [E, sub_mul, Real.sq_sqrt, e]
      norm_num [div_pow]

example : ∃ s' N, (∀ fuel ≥ N, symrl fuel 3 (fun i => (codeG i : ℝ)) 0 (List.ofFn fun _ : Fin 3 => 0 + (2 - 0) * (1 / 2))
      (fun x => MvPolynomial.eval (fun i : Fin 3 => x (i + 1)) (MvPolynomial.X 0 ^ 2 * MvPolynomial.X 1 : MvPolynomial (Fin 3) ℝ)) 0 12 200
      ⟨fun _ => 5, 7, fun _ => 1, fun _ => 2, List.ofFn fun _ : Fin 3 => (2 - 0) * (1 / 2)⟩ = some (0, s')) ∧ s'.hw = (List.ofFn fun _ : Fin 3 => ((2 : ℝ) - 0) * (1 / 2)) ∧
      ∀ m, 1 ≤ m → m ≤ 12 → (MvPolynomial.X 0 ^ 2 * MvPolynomial.X 1 : MvPolynomial (Fin 3) ℝ).totalDegree ≤ 2 * m - 1 →
        s'.intvls m = ∫ x in Set.Icc (fun _ : Fin 3 => (0 : ℝ)) (fun _ => 2), MvPolynomial.eval x (MvPolynomial.X 0 ^ 2 * MvPolynomial.X 1) :=
  C92_rules_partial (n := 3) (by norm_num) (by norm_num) (by norm_num) (by norm_num) codeG_gens _ (a := fun _ => 0) (b := fun _ => 2) (fun _ => by norm_num) _ rfl

example : ∃ N, ∀ fuel ≥ N, ∃ npts, adapt fuel (symOf 3 (fun i => (codeG i : ℝ)) 0 ⟨fun _ => 5, 7, fun _ => 1, fun _ => 2, []⟩) (fun _ => ⟨0, 0, 0, ⟨0, 0⟩⟩)
    (fun x => MvPolynomial.eval (fun i : Fin 3 => x (i + 1)) (MvPolynomial.C 2)) 3 (fun _ => 0) (fun _ => 1) (1 / 1000) 100 1 =
      some (.result (∫ x in Set.Icc (fun _ : Fin 3 => 0) (fun _ => 1), MvPolynomial.eval x (MvPolynomial.C 2)) 0 npts) :=
  C92_result_partial (by norm_num) (by norm_num) codeG_gens _ _ _ (by simp) (fun _ _ _ => by norm_num) (by simp [MeasureTheory.Measure.real, Real.volume_Icc_pi]) (by norm_num) _ _

end Verif.SymRl
