import Verif.MC.PWLemmas
import Mathlib.Analysis.SpecialFunctions.Integrals.Basic
import Mathlib.MeasureTheory.Integral.IntervalIntegral.Basic
import Mathlib.MeasureTheory.Integral.IntervalIntegral.FundThmCalculus
import Mathlib.MeasureTheory.Constructions.UnitInterval
import Mathlib.Data.Rat.Floor

/-!
# Piecewise linear densities are normalised, and are sampled exactly (C57, C58)
-/

set_option linter.unusedSectionVars false
set_option linter.unusedSimpArgs false

namespace Verif.PW

open MeasureTheory

/-! ## Specification -/

/-- `M` is the largest of the values. -/
def IsMax {K : Type*} [LE K] (v : ℕ → K) (n : ℕ) (M : K) : Prop := (∀ i < n, v i ≤ M) ∧ ∃ i < n, v i = M

/-- Grid point `i` of `n` evenly spaced ones from `lo` to `hi`. -/
noncomputable def gridPt (lo hi : ℝ) (n i : ℕ) : ℝ := lo + i * ((hi - lo) / (n - 1))

/-- The straight line from `(a, p)` to `(b, q)`. -/
noncomputable def line (a b p q x : ℝ) : ℝ := p + (q - p) * ((x - a) / (b - a))

/-- The reported density, as a function on the real line: zero where no number is reported. -/
noncomputable def dens (P : PW ℝ) (x : ℝ) : ℝ :=
  match P.pdf x with
  | .val y => y
  | _ => 0

/-- What a user expects of the object made from relative values `r` on the grid of `n` points from `lo` to `hi`, keeping the cells for which `keep` holds of an end. -/
structure Normalised (lo hi : ℝ) (n : ℕ) (r : ℕ → ℝ) (keep : ℕ → Prop) (P : PW ℝ) : Prop where
  /-- Inside a cell the density is the interpolation of the values on a common scale if an end is kept, otherwise it is zero. -/
  inside : ∃ N > 0, ∀ i, i + 1 < n → ∀ x, gridPt lo hi n i < x → x < gridPt lo hi n (i + 1) →
    ((keep i ∨ keep (i + 1)) → P.pdf x = .val (line (gridPt lo hi n i) (gridPt lo hi n (i + 1)) (r i / N) (r (i + 1) / N) x)) ∧
    (¬ (keep i ∨ keep (i + 1)) → P.pdf x = .val 0)
  /-- Outside the domain it is zero. -/
  outside : ∀ x, x < lo ∨ hi < x → P.pdf x = .val 0
  /-- It is never negative. -/
  nonneg : ∀ x, x ≠ hi → ∃ y, P.pdf x = .val y ∧ 0 ≤ y
  /-- It integrates to one. -/
  total : Integrable (dens P) ∧ ∫ x, dens P x = 1
  /-- The intervals to draw from are the cells with an end that is kept, from left to right. -/
  cells : (∀ p, p ∈ P.intvls ↔ ∃ i, i + 1 < n ∧ (keep i ∨ keep (i + 1)) ∧ p = (gridPt lo hi n i, gridPt lo hi n (i + 1))) ∧
    P.intvls.Pairwise (fun p q => p.2 ≤ q.1)
  /-- Their weights are positive, sum to one, and are the integrals of the density. -/
  weights : ∃ ws, P.wts = some ws ∧ (∀ x ∈ ws, 0 < x) ∧ ws.sum = 1 ∧ ws = P.intvls.map (fun p => ∫ x in p.1..p.2, dens P x)

/-! ## Proofs -/

theorem gridPt_eq {lo hi : ℝ} {n : ℕ} (hn : 2 ≤ n) (i : ℕ) : gridPt lo hi n i = linAbsc lo hi n i := by
  have : ((n - 1 : ℕ) : ℝ) = n - 1 := by rw [Nat.cast_sub (by omega)]; simp
  rw [gridPt, linAbsc, this]

theorem integral_line {a b : ℝ} (p q : ℝ) (h : a < b) (y : ℝ) :
    ∫ x in a..y, line a b p q x = p * (y - a) + (q - p) / (b - a) * ((y - a) ^ 2 / 2) := by
  have hb : b - a ≠ 0 := by linarith
  have e : (fun x => line a b p q x) = fun x => (p - (q - p) / (b - a) * a) + (q - p) / (b - a) * x := by
    funext x; simp only [line]; field_simp; ring
  rw [e, intervalIntegral.integral_add (by simp) (by
    apply Continuous.intervalIntegrable; fun_prop)]
  rw [intervalIntegral.integral_const, intervalIntegral.integral_const_mul, integral_id]
  simp only [smul_eq_mul]
  ring

theorem continuous_line (a b p q : ℝ) : Continuous (line a b p q) := by
  unfold line; fun_prop

theorem integral_line_full {a b : ℝ} (p q : ℝ) (h : a < b) :
    ∫ x in a..b, line a b p q x = 1 / 2 * (p + q) * (b - a) := by
  have hb : b - a ≠ 0 := by linarith
  rw [integral_line p q h]; field_simp; ring

theorem cell_integral {f g : ℝ → ℝ} {a b : ℝ} (hab : a ≤ b) (hg : Continuous g) (h : ∀ x, a < x → x < b → f x = g x) :
    IntervalIntegrable f volume a b ∧ ∫ x in a..b, f x = ∫ x in a..b, g x := by
  have hae : f =ᵐ[volume.restrict (Set.uIoc a b)] g := by
    rw [Set.uIoc_of_le hab]
    have : ∀ᵐ x ∂(volume.restrict (Set.Ioc a b)), x ≠ b := by
      have : ∀ᵐ x : ℝ, x ≠ b := by
        simp [ae_iff]
      exact ae_restrict_of_ae this
    filter_upwards [this, ae_restrict_mem measurableSet_Ioc] with x hx hx'
    exact h x hx'.1 (lt_of_le_of_ne hx'.2 hx)
  refine ⟨?_, ?_⟩
  · have : IntervalIntegrable g volume a b := hg.intervalIntegrable a b
    exact this.congr_ae hae.symm
  · apply intervalIntegral.integral_congr_ae
    rw [Filter.EventuallyEq, ae_restrict_iff' measurableSet_uIoc] at hae
    exact hae

theorem normalised_of_built {lo hi : ℝ} {n : ℕ} {w : ℕ → ℝ} {sel : ℕ → Bool} {P : PW ℝ} {keep : ℕ → Prop}
    (B : Built n (linAbsc lo hi n) true ((hi - lo) / (n - 1 : ℕ)) w sel P) (hn : 2 ≤ n) (h : lo < hi)
    (hw : ∀ i < n, 0 ≤ w i) (hsel : ∀ i < n, sel i = true → 0 < w i) (hk : ∀ i < n, sel i = true ↔ keep i) :
    Normalised lo hi n w keep P := by
  have hn0 : (0 : ℝ) < (n - 1 : ℕ) := by exact_mod_cast (by omega : 0 < n - 1)
  set d := (hi - lo) / (n - 1 : ℕ) with hdd
  have hd : 0 < d := div_pos (by linarith) hn0
  have hinc := linAbsc_inc hn h
  have hmono : StrictMono (linAbsc lo hi n) := strictMono_nat_of_lt_succ hinc
  have h0 : linAbsc lo hi n 0 = lo := by simp [linAbsc]
  have h1 : linAbsc lo hi n (n - 1) = hi := by simp only [linAbsc]; field_simp; ring
  have hN := B.norm_pos hn (fun i _ => hinc i) hw hsel
  have hstep : ∀ i, linAbsc lo hi n (i + 1) - linAbsc lo hi n i = d := by
    intro i; simp only [linAbsc, ← hdd]; push_cast; ring
  have hkk : ∀ i, i + 1 < n → ((sel i = true ∨ sel (i + 1) = true) ↔ (keep i ∨ keep (i + 1))) := by
    intro i hi; rw [hk i (by omega), hk (i + 1) hi]
  have hin : ∀ i, i + 1 < n → ∀ x, linAbsc lo hi n i < x → x < linAbsc lo hi n (i + 1) →
      ((keep i ∨ keep (i + 1)) → P.pdf x = .val (line (linAbsc lo hi n i) (linAbsc lo hi n (i + 1)) (w i / P.norm) (w (i + 1) / P.norm) x)) ∧
      (¬ (keep i ∨ keep (i + 1)) → P.pdf x = .val 0) := by
    intro i hi x hx1 hx2
    rw [B.pdf_eq hn h hN.ne' hi hx1.le hx2, ← hkk i hi]
    constructor
    · intro hc
      rw [if_pos (Or.inl hc)]
      simp only [line, hstep i, Num.val.injEq, ← hdd]
      ring
    · intro hc
      rw [if_neg]
      rintro (hc' | ⟨hc', _⟩)
      · exact hc hc'
      · linarith
  have hcell : ∀ i, i + 1 < n → IntervalIntegrable (dens P) volume (linAbsc lo hi n i) (linAbsc lo hi n (i + 1)) ∧
      ∫ x in (linAbsc lo hi n i)..(linAbsc lo hi n (i + 1)), dens P x =
        if i ∈ P.idx then 1 / 2 * (w i + w (i + 1)) * (linAbsc lo hi n (i + 1) - linAbsc lo hi n i) / P.norm else 0 := by
    intro i hi1
    by_cases hc : sel i = true ∨ sel (i + 1) = true
    · rw [if_pos ((B.mem_idx i).2 ⟨hi1, hc⟩)]
      have := cell_integral (f := dens P) (g := line (linAbsc lo hi n i) (linAbsc lo hi n (i + 1)) (w i / P.norm) (w (i + 1) / P.norm))
        (hinc i).le (continuous_line _ _ _ _) (by
          intro x hx1 hx2
          unfold dens
          rw [(hin i hi1 x hx1 hx2).1 ((hkk i hi1).1 hc)])
      refine ⟨this.1, ?_⟩
      rw [this.2, integral_line_full _ _ (hinc i)]
      ring
    · rw [if_neg (fun h => hc ((B.mem_idx i).1 h).2)]
      have := cell_integral (f := dens P) (g := fun _ => 0) (hinc i).le continuous_const (by
          intro x hx1 hx2
          unfold dens
          rw [(hin i hi1 x hx1 hx2).2 (fun h => hc ((hkk i hi1).2 h))])
      refine ⟨this.1, ?_⟩
      rw [this.2]; simp
  have hout : ∀ x, x < lo ∨ hi < x → P.pdf x = .val 0 := fun x hx => B.pdf_out hn h hx
  have hgp : ∀ i, gridPt lo hi n i = linAbsc lo hi n i := gridPt_eq hn
  have hsum : (P.areas.map (· / P.norm)).sum = 1 := by
    have : P.areas.map (· / P.norm) = P.areas.map (· * P.norm⁻¹) := by
      apply List.map_congr_left; intro x _; rw [div_eq_mul_inv]
    rw [this, List.sum_map_mul_right]
    simp only [List.map_id']
    exact mul_inv_cancel₀ hN.ne'
  refine ⟨⟨P.norm, hN, ?_⟩, hout, ?_, ?_, ⟨?_, ?_⟩, ⟨P.areas.map (· / P.norm), ?_, ?_, hsum, ?_⟩⟩
  · simp only [hgp]; exact hin
  · intro x hx
    by_cases hx1 : x < lo
    · exact ⟨0, hout x (Or.inl hx1), le_rfl⟩
    by_cases hx2 : hi < x
    · exact ⟨0, hout x (Or.inr hx2), le_rfl⟩
    push Not at hx1 hx2
    have hlt : x < hi := lt_of_le_of_ne hx2 hx
    have : ∃ i, i + 1 < n ∧ linAbsc lo hi n i ≤ x ∧ x < linAbsc lo hi n (i + 1) := by
      have hex : ∃ j, x < linAbsc lo hi n j := ⟨n - 1, by rw [h1]; exact hlt⟩
      classical
      have hs := Nat.find_spec hex
      have hm := fun m => Nat.find_min (m := m) hex
      have hle : Nat.find hex ≤ n - 1 := Nat.find_min' hex (by rw [h1]; exact hlt)
      have hp : Nat.find hex ≠ 0 := by
        intro h'; rw [h', h0] at hs; linarith
      have e : Nat.find hex - 1 + 1 = Nat.find hex := by omega
      refine ⟨Nat.find hex - 1, by omega, ?_, by rw [e]; exact hs⟩
      exact not_lt.1 (hm _ (by omega))
    obtain ⟨i, hi1, ha, hb⟩ := this
    rw [B.pdf_eq hn h hN.ne' hi1 ha hb]
    split_ifs
    · refine ⟨_, rfl, div_nonneg ?_ hN.le⟩
      have wi := hw i (by omega)
      have wj := hw (i + 1) hi1
      rw [← hdd]
      set t := (x - linAbsc lo hi n i) / d with ht
      have t0 : 0 ≤ t := div_nonneg (by linarith) hd.le
      have t1 : t ≤ 1 := by rw [ht, div_le_one hd, ← hstep i]; linarith
      nlinarith
    · exact ⟨0, rfl, le_rfl⟩
  · have hz : ∀ x, x ∉ Set.Icc lo hi → dens P x = 0 := by
      intro x hx
      unfold dens
      rw [hout x (by
        by_contra hc; push Not at hc; exact hx ⟨hc.1, hc.2⟩)]
    have hall : IntervalIntegrable (dens P) volume lo hi := by
      have := IntervalIntegrable.trans_iterate (f := dens P) (μ := volume) (a := linAbsc lo hi n) (n := n - 1)
        (fun k hk => (hcell k (by omega)).1)
      rwa [h0, h1] at this
    have hI : IntegrableOn (dens P) (Set.Icc lo hi) := by
      rwa [intervalIntegrable_iff_integrableOn_Icc_of_le h.le] at hall
    refine ⟨?_, ?_⟩
    · rw [← integrableOn_iff_integrable_of_support_subset (s := Set.Icc lo hi)]
      · exact hI
      · intro x hx; by_contra hc; exact hx (hz x hc)
    · rw [← setIntegral_eq_integral_of_forall_compl_eq_zero (s := Set.Icc lo hi) hz, integral_Icc_eq_integral_Ioc,
        ← intervalIntegral.integral_of_le h.le]
      have := intervalIntegral.sum_integral_adjacent_intervals (f := dens P) (μ := volume) (a := linAbsc lo hi n) (n := n - 1)
        (fun k hk => (hcell k (by omega)).1)
      rw [h0, h1] at this
      rw [← this, ← hsum]
      rw [Finset.sum_congr rfl (fun k hk => (hcell k (by have := Finset.mem_range.1 hk; omega)).2)]
      rw [PW.areas, List.map_map, ← Finset.sum_filter]
      have e : (Finset.range (n - 1)).filter (fun k => k ∈ P.idx) = P.idx.toFinset := by
        ext k
        simp only [Finset.mem_filter, Finset.mem_range, List.mem_toFinset, and_iff_right_iff_imp]
        intro hk
        have := (B.mem_idx k).1 hk
        omega
      rw [e, List.sum_toFinset _ B.idx_nodup]
      rw [B.ha, B.hw]
      rfl
  · intro p
    rw [PW.intvls, List.mem_map, B.ha]
    simp only [hgp]
    constructor
    · rintro ⟨i, hi, rfl⟩
      obtain ⟨a, b⟩ := (B.mem_idx i).1 hi
      exact ⟨i, a, (hkk i a).1 b, rfl⟩
    · rintro ⟨i, a, b, rfl⟩
      exact ⟨i, (B.mem_idx i).2 ⟨a, (hkk i a).2 b⟩, rfl⟩
  · rw [PW.intvls, List.pairwise_map, B.ha]
    refine B.idx_sorted.imp ?_
    intro i j hij
    exact hmono.monotone hij
  · rw [PW.wts, if_neg hN.ne']
  · intro x hx
    rw [List.mem_map] at hx
    obtain ⟨y, hy, rfl⟩ := hx
    exact div_pos (B.areas_pos (fun i _ => hinc i) hw hsel y hy) hN
  · rw [PW.areas, PW.intvls, List.map_map, List.map_map]
    apply List.map_congr_left
    intro i hi
    simp only [Function.comp, B.ha, B.hw]
    rw [(hcell i ((B.mem_idx i).1 hi).1).2, if_pos hi]

theorem maxTo_eq {v : ℕ → ℝ} {n : ℕ} {M : ℝ} (h : IsMax v n M) : n ≠ 0 ∧ maxTo v (n - 1) = M := by
  obtain ⟨h1, i, hi, h2⟩ := h
  have hn : n ≠ 0 := by omega
  refine ⟨hn, le_antisymm ?_ ?_⟩
  · obtain ⟨j, hj, e⟩ := maxTo_mem v (n - 1)
    rw [← e]; exact h1 j (by omega)
  · rw [← h2]; exact maxTo_ge v (n - 1) i (by omega)

/-! ## C57 -/

/-- **C57** (values).  A density made from non-negative values, with a cutoff from zero up to but not including one, on a grid of at least two points, if one of the values is
positive: the object is made; its density interpolates the values on a common scale in the cells with an end whose value relative to the largest is above the cutoff, is zero
elsewhere, is never negative and integrates to one; the intervals to draw from are these cells, their weights are positive, sum to one and are the integrals of the density.
Missing: the density at the upper end of the domain, where `pdf` raises (`C57_violated`). -/
theorem C57_values_partial {lo hi : ℝ} {n : ℕ} {v : ℕ → ℝ} {cut M : ℝ} (hn : 2 ≤ n) (h : lo < hi) (hc0 : 0 ≤ cut) (hc1 : cut < 1)
    (hv : ∀ i < n, 0 ≤ v i) (hM : IsMax v n M) (hpos : 0 < M) :
    ∃ P, newLin lo hi n v cut = .ok P ∧ Normalised lo hi n (fun i => v i / M) (fun i => cut < v i / M) P := by
  obtain ⟨hn0, hmax⟩ := maxTo_eq hM
  have hr : relVals v n = fun i => v i / M := by funext i; rw [relVals, hmax]
  obtain ⟨_, i, hin, hiM⟩ := hM
  unfold newLin
  rw [if_neg hn0, hmax, if_neg hpos.ne', hr]
  obtain ⟨P, hP⟩ := build_ok (absc := linAbsc lo hi n) (lin := true) (delta := (hi - lo) / (n - 1 : ℕ)) (w := fun i => v i / M)
    (sel := fun i => decide (v i / M > cut)) hin (by simp [hiM, div_self hpos.ne', hc1])
  refine ⟨P, hP, ?_⟩
  have hsel : ∀ i < n, decide (v i / M > cut) = true → 0 < v i / M := by
    intro i _ h'
    simp only [gt_iff_lt, decide_eq_true_eq] at h'
    linarith
  exact normalised_of_built (build_spec hsel hP) hn h (fun i hi => div_nonneg (hv i hi) hpos.le) hsel (by intro i _; simp)

/-- **C57** (logarithms).  The same for a density made from the logarithms of the values, with a positive cutoff below one: values at or below the cutoff count as zero.
Missing: the density at the upper end of the domain, where `pdf` raises (`C57_violated`). -/
theorem C57_logs_partial {lo hi : ℝ} {n : ℕ} {v : ℕ → ℝ} {cut M : ℝ} (hn : 2 ≤ n) (h : lo < hi) (hc0 : 0 < cut) (hc1 : cut < 1)
    (hM : IsMax v n M) :
    ∃ P, newLog lo hi n v cut = .ok P ∧
      Normalised lo hi n (fun i => if cut < Real.exp (v i - M) then Real.exp (v i - M) else 0) (fun i => cut < Real.exp (v i - M)) P := by
  obtain ⟨hn0, hmax⟩ := maxTo_eq hM
  have hlog : ∀ i, (v i - M > Real.log cut) = (cut < Real.exp (v i - M)) := by
    intro i
    rw [gt_iff_lt, Real.log_lt_iff_lt_exp hc0]
  have hr : relLogVals v n cut = fun i => if cut < Real.exp (v i - M) then Real.exp (v i - M) else 0 := by
    funext i
    simp only [relLogVals, hmax, hlog]
  obtain ⟨_, i, hin, hiM⟩ := hM
  unfold newLog
  rw [if_neg hn0, hr, hmax]
  have hs : ∀ i, decide (v i - M > Real.log cut) = true ↔ cut < Real.exp (v i - M) := by
    intro i; rw [decide_eq_true_eq, hlog]
  obtain ⟨P, hP⟩ := build_ok (absc := linAbsc lo hi n) (lin := true) (delta := (hi - lo) / (n - 1 : ℕ))
    (w := fun i => if cut < Real.exp (v i - M) then Real.exp (v i - M) else 0)
    (sel := fun i => decide (v i - M > Real.log cut)) hin (by rw [hs, hiM]; simpa using hc1)
  refine ⟨P, hP, ?_⟩
  have hsel : ∀ i < n, decide (v i - M > Real.log cut) = true → 0 < (if cut < Real.exp (v i - M) then Real.exp (v i - M) else 0) := by
    intro i _ h'
    rw [if_pos ((hs i).1 h')]
    exact Real.exp_pos _
  refine normalised_of_built (build_spec hsel hP) hn h ?_ hsel (fun i _ => hs i)
  intro i _
  split_ifs
  · exact (Real.exp_pos _).le
  · exact le_rfl

/-- **C57** (given abscissas).  For increasing abscissas the weights are positive and sum to one, there is one for each interval with an end above the cutoff, and each is the area
under the line between the values at the ends, on a common scale.
Missing: the density, which raises for given abscissas (`C57_abscissas_violated`). -/
theorem C57_abscissas_partial {n : ℕ} {absc v : ℕ → ℝ} {cut M : ℝ} (hn : 2 ≤ n) (hinc : ∀ i, i + 1 < n → absc i < absc (i + 1))
    (hc0 : 0 ≤ cut) (hc1 : cut < 1) (hv : ∀ i < n, 0 ≤ v i) (hM : IsMax v n M) (hpos : 0 < M) :
    ∃ P ws N, newAbsc n absc n v cut = .ok P ∧ P.wts = some ws ∧ 0 < N ∧ (∀ x ∈ ws, 0 < x) ∧ ws.sum = 1 ∧
      ∃ cells : List ℕ, cells.Pairwise (· < ·) ∧ (∀ i, i ∈ cells ↔ i + 1 < n ∧ (cut < v i / M ∨ cut < v (i + 1) / M)) ∧
        P.intvls = cells.map (fun i => (absc i, absc (i + 1))) ∧
        ws = cells.map (fun i => ∫ x in (absc i)..(absc (i + 1)), line (absc i) (absc (i + 1)) (v i / M / N) (v (i + 1) / M / N) x) := by
  obtain ⟨hn0, hmax⟩ := maxTo_eq hM
  have hr : relVals v n = fun i => v i / M := by funext i; rw [relVals, hmax]
  obtain ⟨_, i, hin, hiM⟩ := hM
  unfold newAbsc
  rw [if_neg (by simp), if_neg hn0, hmax, if_neg hpos.ne', hr]
  obtain ⟨P, hP⟩ := build_ok (absc := absc) (lin := false) (delta := 0) (w := fun i => v i / M)
    (sel := fun i => decide (v i / M > cut)) hin (by simp [hiM, div_self hpos.ne', hc1])
  have hsel : ∀ i < n, decide (v i / M > cut) = true → 0 < v i / M := by
    intro i _ h'
    simp only [gt_iff_lt, decide_eq_true_eq] at h'
    linarith
  have B := build_spec hsel hP
  have hw : ∀ i < n, 0 ≤ v i / M := fun i hi => div_nonneg (hv i hi) hpos.le
  have hN := B.norm_pos hn hinc hw hsel
  refine ⟨P, P.areas.map (· / P.norm), P.norm, hP, by rw [PW.wts, if_neg hN.ne'], hN, ?_, ?_, P.idx, B.idx_sorted, ?_, ?_, ?_⟩
  · intro x hx
    rw [List.mem_map] at hx
    obtain ⟨y, hy, rfl⟩ := hx
    exact div_pos (B.areas_pos hinc hw hsel y hy) hN
  · have : P.areas.map (· / P.norm) = P.areas.map (· * P.norm⁻¹) := by
      apply List.map_congr_left; intro x _; rw [div_eq_mul_inv]
    rw [this, List.sum_map_mul_right]
    simp only [List.map_id']
    exact mul_inv_cancel₀ hN.ne'
  · intro i; rw [B.mem_idx]; simp
  · rw [PW.intvls, B.ha]
  · rw [PW.areas, List.map_map]
    apply List.map_congr_left
    intro i hi
    have := ((B.mem_idx i).1 hi).1
    rw [integral_line_full _ _ (hinc i this)]
    simp only [Function.comp, B.ha, B.hw]
    ring

/-- The values 1, 0, 0, 2 with any small cutoff meet the hypotheses. -/
example : ∃ P, newLin (0 : ℝ) 3 4 (fun i => if i = 0 then 1 else if i = 3 then 2 else 0) (1 / 10) = .ok P ∧
    Normalised 0 3 4 (fun i => (if i = 0 then 1 else if i = 3 then 2 else 0) / 2) (fun i => 1 / 10 < (if i = 0 then (1 : ℝ) else if i = 3 then 2 else 0) / 2) P := by
  refine C57_values_partial (by norm_num) (by norm_num) (by norm_num) (by norm_num) ?_ ⟨?_, 3, by norm_num, by norm_num⟩ (by norm_num)
  · intro i _; split_ifs <;> norm_num
  · intro i _; dsimp only; split_ifs <;> norm_num

example : ∃ P, newLog (0 : ℝ) 3 4 (fun i => (i : ℝ)) (1 / 10) = .ok P ∧
    Normalised 0 3 4 (fun i => if 1 / 10 < Real.exp (i - 3) then Real.exp (i - 3) else 0) (fun i => 1 / 10 < Real.exp ((i : ℝ) - 3)) P := by
  refine C57_logs_partial (by norm_num) (by norm_num) (by norm_num) (by norm_num) ⟨?_, 3, by norm_num, by norm_num⟩
  intro i hi
  have : (i : ℝ) ≤ 3 := by exact_mod_cast (by omega : i ≤ 3)
  exact this

example : ∃ P ws N, newAbsc 3 (fun i => ((i : ℝ)) ^ 2) 3 (fun i => (i : ℝ)) 0 = .ok P ∧ P.wts = some ws ∧ 0 < N ∧ (∀ x ∈ ws, 0 < x) ∧ ws.sum = 1 ∧
      ∃ cells : List ℕ, cells.Pairwise (· < ·) ∧ (∀ i, i ∈ cells ↔ i + 1 < 3 ∧ (0 < (i : ℝ) / 2 ∨ 0 < ((i + 1 : ℕ) : ℝ) / 2)) ∧
        P.intvls = cells.map (fun (i : ℕ) => ((i : ℝ) ^ 2, ((i + 1 : ℕ) : ℝ) ^ 2)) ∧
        ws = cells.map (fun (i : ℕ) => ∫ x in ((i : ℝ) ^ 2)..(((i + 1 : ℕ) : ℝ) ^ 2), line ((i : ℝ) ^ 2) (((i + 1 : ℕ) : ℝ) ^ 2) ((i : ℝ) / 2 / N) (((i + 1 : ℕ) : ℝ) / 2 / N) x) := by
  refine C57_abscissas_partial (v := fun i => (i : ℝ)) (by norm_num) ?_ (by norm_num) (by norm_num) ?_ ⟨?_, 2, by norm_num, by norm_num⟩ (by norm_num)
  · intro i _; push_cast; nlinarith [Nat.cast_nonneg (α := ℝ) i]
  · intro i _; positivity
  · intro i hi
    have : (i : ℝ) ≤ 2 := by exact_mod_cast (by omega : i ≤ 2)
    exact this

/-- **C57 is violated at the upper end**: whenever one of the last two values is above the cutoff, asking for the density at the upper end of the domain raises an IndexError,
because the cell after the last one is used. -/
theorem C57_violated {lo hi : ℝ} {n : ℕ} {v : ℕ → ℝ} {cut M : ℝ} (hn : 2 ≤ n) (h : lo < hi) (hc0 : 0 ≤ cut)
    (hM : IsMax v n M) (hpos : 0 < M) (hlast : cut < v (n - 1) / M) :
    ∃ P, newLin lo hi n v cut = .ok P ∧ P.pdf hi = .err .index := by
  obtain ⟨hn0, hmax⟩ := maxTo_eq hM
  have hr : relVals v n = fun i => v i / M := by funext i; rw [relVals, hmax]
  unfold newLin
  rw [if_neg hn0, hmax, if_neg hpos.ne', hr]
  obtain ⟨P, hP⟩ := build_ok (absc := linAbsc lo hi n) (lin := true) (delta := (hi - lo) / (n - 1 : ℕ)) (w := fun i => v i / M)
    (sel := fun i => decide (v i / M > cut)) (show n - 1 < n by omega) (by simpa using hlast)
  refine ⟨P, hP, ?_⟩
  have hsel : ∀ i < n, decide (v i / M > cut) = true → 0 < v i / M := by
    intro i _ h'
    simp only [gt_iff_lt, decide_eq_true_eq] at h'
    linarith
  rw [(build_spec hsel hP).pdf_last hn h, if_pos (Or.inl (by simpa using hlast))]

example : ∃ P, newLin (0 : ℝ) 1 2 (fun _ => 1) 0 = .ok P ∧ P.pdf 1 = .err .index :=
  C57_violated (M := 1) (by norm_num) (by norm_num) le_rfl ⟨by simp, 0, by norm_num, rfl⟩ (by norm_num) (by norm_num)

/-- **C57 is violated for given abscissas**: the density cannot be evaluated inside the support. -/
theorem C57_abscissas_violated : ∃ P, newAbsc 3 (fun i => (i : ℚ) ^ 2) 3 (fun i => i + 1) 0 = .ok P ∧ P.pdf 2 = .err .notImplemented := by
  refine ⟨⟨3, fun i => (i : ℚ) ^ 2, false, 0, relVals (fun i => (i : ℚ) + 1) 3, [(0, 2)]⟩, ?_, ?_⟩
  · unfold newAbsc
    have hm : maxTo (fun i => (i : ℚ) + 1) (3 - 1) = 3 := by norm_num [maxTo]
    rw [if_neg (by simp), if_neg (by simp), hm, if_neg (by norm_num)]
    have hs : (List.range 3).filter (fun i => decide (relVals (fun i => (i : ℚ) + 1) 3 i > 0)) = [0, 1, 2] := by
      have : ∀ i, relVals (fun i => (i : ℚ) + 1) 3 i > 0 := by
        intro i; rw [relVals, hm]; positivity
      simp only [this, decide_true, List.filter_true]
      rfl
    unfold build
    rw [hs]
    simp [runs, firstRange, relVals, hm]
  · unfold PW.pdf
    norm_num [List.find?]

/-! ## C58 -/

theorem drawIn_spec {lo hi plo phi u : ℝ} (h : lo < hi) (h0 : 0 ≤ plo) (h1 : 0 ≤ phi) (hne : 0 < plo + phi) (hu0 : 0 ≤ u) (hu1 : u ≤ 1) :
    lo ≤ drawIn lo hi plo phi u ∧ drawIn lo hi plo phi u ≤ hi ∧
    plo * (drawIn lo hi plo phi u - lo) + (phi - plo) / (hi - lo) * ((drawIn lo hi plo phi u - lo) ^ 2 / 2) =
      u * (1 / 2 * (plo + phi) * (hi - lo)) := by
  unfold drawIn
  by_cases he : plo = phi
  · rw [if_pos he]
    subst he
    refine ⟨by nlinarith, by nlinarith, ?_⟩
    simp only [sub_self, zero_div, zero_mul, add_zero]
    ring
  · rw [if_neg he]
    dsimp only
    have hd : phi - plo ≠ 0 := fun h' => he (by linarith)
    have hb : hi - lo ≠ 0 := by linarith
    set D := plo ^ 2 + (phi ^ 2 - plo ^ 2) * u with hD
    have hD0 : 0 ≤ D := by
      have : D = plo ^ 2 * (1 - u) + phi ^ 2 * u := by rw [hD]; ring
      rw [this]
      have : 0 ≤ 1 - u := by linarith
      positivity
    set s := Real.sqrt D with hs
    have hs2 : s ^ 2 = D := Real.sq_sqrt hD0
    have hs0 : 0 ≤ s := Real.sqrt_nonneg _
    set r := (hi - lo) / (phi - plo) with hr
    have hrr : r * (phi - plo) = hi - lo := by rw [hr]; field_simp
    refine ⟨?_, ?_, ?_⟩
    · rcases lt_or_gt_of_ne he with hlt | hgt
      · have hrp : 0 < r := div_pos (by linarith) (by linarith)
        have : plo ≤ s := by
          rw [hs]; apply Real.le_sqrt_of_sq_le; rw [hD]
          nlinarith [mul_nonneg (mul_nonneg (sub_nonneg.2 hlt.le) (add_nonneg h0 h1)) hu0]
        nlinarith
      · have hrp : r < 0 := div_neg_of_pos_of_neg (by linarith) (by linarith)
        have : s ≤ plo := by
          rw [hs, Real.sqrt_le_left h0, hD]
          nlinarith [mul_nonneg (mul_nonneg (sub_nonneg.2 hgt.le) (add_nonneg h0 h1)) hu0]
        nlinarith
    · rcases lt_or_gt_of_ne he with hlt | hgt
      · have hrp : 0 < r := div_pos (by linarith) (by linarith)
        have : s ≤ phi := by
          rw [hs, Real.sqrt_le_left h1, hD]
          nlinarith [mul_nonneg (mul_nonneg (sub_nonneg.2 hlt.le) (add_nonneg h0 h1)) (sub_nonneg.2 hu1)]
        nlinarith
      · have hrp : r < 0 := div_neg_of_pos_of_neg (by linarith) (by linarith)
        have : phi ≤ s := by
          rw [hs]; apply Real.le_sqrt_of_sq_le; rw [hD]
          nlinarith [mul_nonneg (mul_nonneg (sub_nonneg.2 hgt.le) (add_nonneg h0 h1)) (sub_nonneg.2 hu1)]
        nlinarith
    · have e1 : lo - r * plo + r * s - lo = r * (s - plo) := by ring
      rw [e1]
      have e2 : (phi - plo) / (hi - lo) * ((r * (s - plo)) ^ 2 / 2) = r * ((s - plo) ^ 2 / 2) := by
        rw [hr]; field_simp
      rw [e2]
      have e3 : plo * (r * (s - plo)) + r * ((s - plo) ^ 2 / 2) = r / 2 * (s ^ 2 - plo ^ 2) := by ring
      rw [e3, hs2, hD, ← hrr]
      ring

/-- **C58.**  In an interval from `lo` to `hi` with end densities `plo` and `phi`, not negative and not both zero, a uniform number `u` of `[0, 1]` is mapped to the point of the
interval at which the fraction of the area under the line from `plo` to `phi` is `u`, whether or not the interval is flat. -/
theorem C58_inverse {lo hi plo phi u : ℝ} (h : lo < hi) (h0 : 0 ≤ plo) (h1 : 0 ≤ phi) (hne : 0 < plo + phi) (hu0 : 0 ≤ u) (hu1 : u ≤ 1) :
    drawIn lo hi plo phi u ∈ Set.Icc lo hi ∧
    ∫ x in lo..(drawIn lo hi plo phi u), line lo hi plo phi x = u * ∫ x in lo..hi, line lo hi plo phi x := by
  obtain ⟨a, b, c⟩ := drawIn_spec h h0 h1 hne hu0 hu1
  exact ⟨⟨a, b⟩, by rw [integral_line _ _ h, integral_line_full _ _ h, c]⟩

/-- The area under the line is strictly increasing with its upper end. -/
theorem area_strict {lo hi plo phi x y : ℝ} (h : lo < hi) (h0 : 0 ≤ plo) (h1 : 0 ≤ phi) (hne : 0 < plo + phi) (hx : lo ≤ x) (hxy : x < y) (hy : y ≤ hi) :
    plo * (x - lo) + (phi - plo) / (hi - lo) * ((x - lo) ^ 2 / 2) < plo * (y - lo) + (phi - plo) / (hi - lo) * ((y - lo) ^ 2 / 2) := by
  set c := (phi - plo) / (hi - lo) with hc
  have hcc : c * (hi - lo) = phi - plo := by rw [hc]; exact div_mul_cancel₀ _ (by linarith)
  have e : plo * (y - lo) + c * ((y - lo) ^ 2 / 2) - (plo * (x - lo) + c * ((x - lo) ^ 2 / 2)) = (y - x) * (plo + c * ((x - lo + (y - lo)) / 2)) := by ring
  set t := (x - lo + (y - lo)) / 2 with ht
  have ht0 : 0 < t := by rw [ht]; linarith
  have ht1 : t < hi - lo := by rw [ht]; linarith
  have hpos : 0 < plo + c * t := by
    have hb : 0 < hi - lo := by linarith
    have : (plo + c * t) * (hi - lo) = plo * (hi - lo - t) + phi * t := by
      have : c * t * (hi - lo) = (phi - plo) * t := by rw [← hcc]; ring
      linear_combination this
    have : 0 < (plo + c * t) * (hi - lo) := by
      rw [this]
      rcases h0.lt_or_eq with hp | hp
      · have := mul_pos hp (by linarith : 0 < hi - lo - t)
        have := mul_nonneg h1 ht0.le
        linarith
      · have := mul_pos (by linarith : 0 < phi) ht0
        have := mul_nonneg h0 (by linarith : 0 ≤ hi - lo - t)
        linarith
    exact (mul_pos_iff_of_pos_right hb).1 this
  have := mul_pos (sub_pos.2 hxy) hpos
  linarith

/-- **C58** (increasing).  A larger uniform number gives a larger point. -/
theorem C58_increasing {lo hi plo phi : ℝ} (h : lo < hi) (h0 : 0 ≤ plo) (h1 : 0 ≤ phi) (hne : 0 < plo + phi) :
    StrictMonoOn (drawIn lo hi plo phi) (Set.Icc 0 1) := by
  intro u hu v hv huv
  obtain ⟨a, b, c⟩ := drawIn_spec h h0 h1 hne hu.1 hu.2
  obtain ⟨a', b', c'⟩ := drawIn_spec h h0 h1 hne hv.1 hv.2
  by_contra hcon
  push Not at hcon
  have hA : 0 < 1 / 2 * (plo + phi) * (hi - lo) := by
    have : 0 < hi - lo := by linarith
    positivity
  have huv' := mul_lt_mul_of_pos_right huv hA
  rcases hcon.lt_or_eq with hlt | heq
  · have := area_strict h h0 h1 hne a' hlt b
    linarith
  · rw [heq] at c'
    linarith

/-- **C58** (arrays).  The array form of the formula gives the same numbers, also for flat intervals. -/
theorem C58_array (lo hi plo phi u : ℝ) : drawVec lo hi plo phi u = some (drawIn lo hi plo phi u) := by
  unfold drawVec drawIn
  by_cases h : plo = phi
  · subst h; simp
  · have h' : phi ≠ plo := fun e => h e.symm
    have h'' : phi - plo ≠ 0 := sub_ne_zero.2 h'
    simp [h, h', h'']

/-- **C58** (vectors).  Asking for several samples gives what asking for them one at a time gives, for the same intervals and uniform numbers. -/
theorem C58_vector (P : PW ℝ) (l : List (ℕ × ℝ)) (ys : List ℝ) (h : List.Forall₂ (fun p y => P.sample p.1 p.2 = .val y) l ys) :
    P.sampleVec l = .ok (ys.map some) := by
  induction h with
  | nil => rfl
  | @cons p y l ys hp _ ih =>
    obtain ⟨index, u⟩ := p
    simp only [PW.sample] at hp
    rcases h1 : P.intvls[index]? with _ | ⟨lo, hi⟩
    · simp [h1] at hp
    rcases h2 : P.ends[index]? with _ | ⟨plo, phi⟩
    · simp [h1, h2] at hp
    simp only [h1, h2, Num.val.injEq] at hp
    simp only [PW.sampleVec, h1, h2, ih, C58_array, hp, List.map_cons]

example : (⟨2, fun i => (i : ℝ), true, 1, fun _ => 1, [(0, 1)]⟩ : PW ℝ).sampleVec [(0, 1 / 2), (0, 1)] = .ok [some (1 / 2), some 1] := by
  refine C58_vector _ _ [1 / 2, 1] (.cons ?_ (.cons ?_ .nil)) <;> norm_num [PW.sample, PW.intvls, PW.ends, PW.idx, drawIn]

theorem drawIn_volume {lo hi plo phi : ℝ} (h : lo < hi) (h0 : 0 ≤ plo) (h1 : 0 ≤ phi) (hne : 0 < plo + phi) (x : ℝ) :
    (volume {u : unitInterval | drawIn lo hi plo phi u ≤ x}).toReal * (1 / 2 * (plo + phi) * (hi - lo)) =
      plo * (max lo (min x hi) - lo) + (phi - plo) / (hi - lo) * ((max lo (min x hi) - lo) ^ 2 / 2) := by
  have hA : 0 < 1 / 2 * (plo + phi) * (hi - lo) := by
    have : 0 < hi - lo := by linarith
    positivity
  set A := 1 / 2 * (plo + phi) * (hi - lo) with hAd
  set y := max lo (min x hi) with hy
  have hy0 : lo ≤ y := le_max_left _ _
  have hy1 : y ≤ hi := max_le h.le (min_le_right _ _)
  set G := fun y => plo * (y - lo) + (phi - plo) / (hi - lo) * ((y - lo) ^ 2 / 2) with hG
  have hGlo : G lo = 0 := by simp [hG]
  have hGhi : G hi = A := by
    have hb : hi - lo ≠ 0 := by linarith
    simp only [hG, hAd]; field_simp; ring
  have hmono : ∀ a b, lo ≤ a → a < b → b ≤ hi → G a < G b := fun a b ha hab hb => area_strict h h0 h1 hne ha hab hb
  have hGy0 : 0 ≤ G y := by
    rcases hy0.lt_or_eq with hl | hl
    · have := hmono lo y le_rfl hl hy1; linarith
    · rw [← hl, hGlo]
  have hGy1 : G y ≤ A := by
    rcases hy1.lt_or_eq with hl | hl
    · have := hmono y hi hy0 hl le_rfl; linarith
    · rw [hl, hGhi]
  by_cases hxlo : x < lo
  · have : {u : unitInterval | drawIn lo hi plo phi u ≤ x} = ∅ := by
      ext u
      simp only [Set.mem_ofPred_eq, Set.mem_empty_iff_false, iff_false, not_le]
      exact lt_of_lt_of_le hxlo (drawIn_spec h h0 h1 hne u.2.1 u.2.2).1
    rw [this]
    have hyl : y = lo := by rw [hy]; exact max_eq_left (le_trans (min_le_left _ _) hxlo.le)
    simp [hyl]
  push Not at hxlo
  have hset : {u : unitInterval | drawIn lo hi plo phi u ≤ x} = Set.Iic (⟨G y / A, div_nonneg hGy0 hA.le, by rw [div_le_one hA]; exact hGy1⟩ : unitInterval) := by
    ext u
    simp only [Set.mem_ofPred_eq, Set.mem_Iic, ← Subtype.coe_le_coe]
    obtain ⟨a, b, c⟩ := drawIn_spec h h0 h1 hne u.2.1 u.2.2
    have c' : G (drawIn lo hi plo phi u) = u * A := c
    rw [le_div_iff₀ hA, ← c']
    have hyx : y = min x hi := by rw [hy]; exact max_eq_right (le_min hxlo h.le)
    constructor
    · intro hle
      have hle' : drawIn lo hi plo phi u ≤ y := by rw [hyx]; exact le_min hle b
      rcases hle'.lt_or_eq with hl | hl
      · exact (hmono _ _ a hl hy1).le
      · rw [hl]
    · intro hle
      by_contra hc
      push Not at hc
      have : y < drawIn lo hi plo phi u := lt_of_le_of_lt (by rw [hyx]; exact min_le_left _ _) hc
      have := hmono _ _ hy0 this b
      linarith
  rw [hset, unitInterval.volume_Iic]
  rw [ENNReal.toReal_ofReal (div_nonneg hGy0 hA.le)]
  rw [div_mul_cancel₀ _ hA.ne']

/-- The distribution function of a number drawn in a cell, under the density scaled by the norm. -/
theorem Built.sampler {lo hi : ℝ} {n : ℕ} {w : ℕ → ℝ} {sel : ℕ → Bool} {P : PW ℝ} {keep : ℕ → Prop}
    (B : Built n (linAbsc lo hi n) true ((hi - lo) / (n - 1 : ℕ)) w sel P) (hn : 2 ≤ n) (h : lo < hi)
    (hw : ∀ i < n, 0 ≤ w i) (hsel : ∀ i < n, sel i = true → 0 < w i) (hk : ∀ i < n, sel i = true ↔ keep i) (x : ℝ) :
    ∃ ws, P.wts = some ws ∧ ((List.range ws.length).map fun j =>
      ws.getD j 0 * (volume {u : unitInterval | ∃ y, P.sample j u = .val y ∧ y ≤ x}).toReal).sum = ∫ t in Set.Iic x, dens P t := by
  have S := normalised_of_built B hn h hw hsel hk
  have hinc := linAbsc_inc hn h
  have hN := B.norm_pos hn (fun i _ => hinc i) hw hsel
  have hn0 : (0 : ℝ) < (n - 1 : ℕ) := by exact_mod_cast (by omega : 0 < n - 1)
  have h0 : linAbsc lo hi n 0 = lo := by simp [linAbsc]
  have h1 : linAbsc lo hi n (n - 1) = hi := by simp only [linAbsc]; field_simp; ring
  have hws : P.wts = some (P.areas.map (· / P.norm)) := by rw [PW.wts, if_neg hN.ne']
  refine ⟨_, hws, ?_⟩
  set f := (Set.Iic x).indicator (dens P) with hf
  have hcell : ∀ i, i + 1 < n → IntervalIntegrable f volume (linAbsc lo hi n i) (linAbsc lo hi n (i + 1)) ∧
      ∫ t in (linAbsc lo hi n i)..(linAbsc lo hi n (i + 1)), f t =
        if i ∈ P.idx then 1 / 2 * (w i + w (i + 1)) * (linAbsc lo hi n (i + 1) - linAbsc lo hi n i) / P.norm *
          (volume {u : unitInterval | drawIn (linAbsc lo hi n i) (linAbsc lo hi n (i + 1)) (w i) (w (i + 1)) u ≤ x}).toReal else 0 := by
    intro i hi1
    set a := linAbsc lo hi n i with ha
    set b := linAbsc lo hi n (i + 1) with hb
    have hab : a < b := hinc i
    set y := max a (min x b) with hy
    have hay : a ≤ y := le_max_left _ _
    have hyb : y ≤ b := max_le hab.le (min_le_right _ _)
    have hin : ∀ t, a < t → t < b → dens P t = if i ∈ P.idx then line a b (w i / P.norm) (w (i + 1) / P.norm) t else 0 := by
      intro t ht1 ht2
      unfold dens
      rw [B.pdf_eq hn h hN.ne' hi1 ht1.le ht2]
      by_cases hc : sel i = true ∨ sel (i + 1) = true
      · rw [if_pos (Or.inl hc), if_pos ((B.mem_idx i).2 ⟨hi1, hc⟩)]
        have e : (hi - lo) / (n - 1 : ℕ) = b - a := by
          rw [ha, hb]; simp only [linAbsc]; push_cast; ring
        simp only [line, e, ← ha]
        ring
      · rw [if_neg, if_neg (fun h => hc ((B.mem_idx i).1 h).2)]
        rintro (hc' | ⟨hc', _⟩)
        · exact hc hc'
        · rw [← ha] at hc'; linarith
    have g1 : ∀ t, a < t → t < y → f t = if i ∈ P.idx then line a b (w i / P.norm) (w (i + 1) / P.norm) t else 0 := by
      intro t ht1 ht2
      have ht : t ≤ x := by
        rcases lt_max_iff.1 ht2 with h' | h'
        · linarith
        · exact (lt_of_lt_of_le h' (min_le_left _ _)).le
      rw [hf, Set.indicator_of_mem (show t ∈ Set.Iic x from ht), hin t ht1 (lt_of_lt_of_le ht2 hyb)]
    have g2 : ∀ t, y < t → t < b → f t = 0 := by
      intro t ht1 ht2
      have ht : x < t := by
        have : min x b < t := lt_of_le_of_lt (le_max_right _ _) ht1
        rcases min_lt_iff.1 this with h' | h'
        · exact h'
        · linarith
      rw [hf, Set.indicator_of_notMem (by simpa using ht)]
    have i2 := cell_integral (f := f) (g := fun _ => 0) hyb continuous_const g2
    by_cases hc : i ∈ P.idx
    · simp only [if_pos hc] at g1
      have i1 := cell_integral (f := f) (g := line a b (w i / P.norm) (w (i + 1) / P.norm)) hay (continuous_line _ _ _ _) g1
      refine ⟨i1.1.trans i2.1, ?_⟩
      rw [← intervalIntegral.integral_add_adjacent_intervals i1.1 i2.1, i1.2, i2.2, if_pos hc, integral_line _ _ hab]
      have hwi := hw i (by omega)
      have hwj := hw (i + 1) hi1
      have hne : 0 < w i + w (i + 1) := by
        rcases ((B.mem_idx i).1 hc).2 with h' | h'
        · have := hsel i (by omega) h'; linarith
        · have := hsel (i + 1) hi1 h'; linarith
      have := drawIn_volume hab hwi hwj hne x
      rw [← hy] at this
      have hba : b - a ≠ 0 := by linarith
      have e : ∀ A V : ℝ, A / P.norm * V = V * A / P.norm := by intro A V; ring
      rw [e (1 / 2 * (w i + w (i + 1)) * (b - a)), this]
      simp only [intervalIntegral.integral_zero, add_zero]
      field_simp
    · simp only [if_neg hc] at g1
      have i1 := cell_integral (f := f) (g := fun _ => 0) hay continuous_const g1
      refine ⟨i1.1.trans i2.1, ?_⟩
      rw [← intervalIntegral.integral_add_adjacent_intervals i1.1 i2.1, i1.2, i2.2, if_neg hc]
      simp
  have hz : ∀ t, t ∉ Set.Icc lo hi → f t = 0 := by
    intro t ht
    have : dens P t = 0 := by
      unfold dens
      rw [S.outside t (by by_contra hc; push Not at hc; exact ht ⟨hc.1, hc.2⟩)]
    rw [hf, Set.indicator_apply, this]; simp
  rw [← integral_indicator measurableSet_Iic, ← hf, ← setIntegral_eq_integral_of_forall_compl_eq_zero (s := Set.Icc lo hi) hz,
    integral_Icc_eq_integral_Ioc, ← intervalIntegral.integral_of_le h.le]
  have hsum := intervalIntegral.sum_integral_adjacent_intervals (f := f) (μ := volume) (a := linAbsc lo hi n) (n := n - 1)
    (fun k hk => (hcell k (by omega)).1)
  rw [h0, h1] at hsum
  rw [← hsum, Finset.sum_congr rfl (fun k hk => (hcell k (by have := Finset.mem_range.1 hk; omega)).2), ← Finset.sum_filter]
  have e : (Finset.range (n - 1)).filter (fun k => k ∈ P.idx) = P.idx.toFinset := by
    ext k
    simp only [Finset.mem_filter, Finset.mem_range, List.mem_toFinset, and_iff_right_iff_imp]
    intro hk
    have := (B.mem_idx k).1 hk
    omega
  rw [e, List.sum_toFinset _ B.idx_nodup]
  congr 1
  apply List.ext_getElem
  · simp [PW.areas]
  · intro j hj1 hj2
    have hj : j < P.idx.length := by simpa using hj2
    simp only [List.getElem_map, List.getElem_range]
    have e1 : (P.areas.map (· / P.norm)).getD j 0 = 1 / 2 * (w P.idx[j] + w (P.idx[j] + 1)) *
        (linAbsc lo hi n (P.idx[j] + 1) - linAbsc lo hi n P.idx[j]) / P.norm := by
      simp [List.getD, PW.areas, B.ha, B.hw, List.getElem?_eq_getElem hj]
    have e2 : ∀ u, P.sample j u = .val (drawIn (linAbsc lo hi n P.idx[j]) (linAbsc lo hi n (P.idx[j] + 1)) (w P.idx[j]) (w (P.idx[j] + 1)) u) := by
      intro u
      simp [PW.sample, PW.intvls, PW.ends, List.getElem?_eq_getElem hj, B.ha, B.hw]
    rw [e1]
    congr 3
    ext u
    simp [e2]

/-- **C58** (distribution, values).  If the interval is chosen with its weight, and then a uniform number places the sample in the interval, the probability of a sample up to `x` is
the integral of the reported density up to `x`, for every `x`. -/
theorem C58_distribution {lo hi : ℝ} {n : ℕ} {v : ℕ → ℝ} {cut M : ℝ} (hn : 2 ≤ n) (h : lo < hi) (hc0 : 0 ≤ cut) (hc1 : cut < 1)
    (hv : ∀ i < n, 0 ≤ v i) (hM : IsMax v n M) (hpos : 0 < M) (x : ℝ) :
    ∃ P ws, newLin lo hi n v cut = .ok P ∧ P.wts = some ws ∧ ((List.range ws.length).map fun j =>
      ws.getD j 0 * (volume {u : unitInterval | ∃ y, P.sample j u = .val y ∧ y ≤ x}).toReal).sum = ∫ t in Set.Iic x, dens P t := by
  obtain ⟨hn0, hmax⟩ := maxTo_eq hM
  have hr : relVals v n = fun i => v i / M := by funext i; rw [relVals, hmax]
  obtain ⟨_, i, hin, hiM⟩ := hM
  unfold newLin
  rw [if_neg hn0, hmax, if_neg hpos.ne', hr]
  obtain ⟨P, hP⟩ := build_ok (absc := linAbsc lo hi n) (lin := true) (delta := (hi - lo) / (n - 1 : ℕ)) (w := fun i => v i / M)
    (sel := fun i => decide (v i / M > cut)) hin (by simp [hiM, div_self hpos.ne', hc1])
  have hsel : ∀ i < n, decide (v i / M > cut) = true → 0 < v i / M := by
    intro i _ h'
    simp only [gt_iff_lt, decide_eq_true_eq] at h'
    linarith
  obtain ⟨ws, hws, hs⟩ := (build_spec hsel hP).sampler (keep := fun i => cut < v i / M) hn h (fun i hi => div_nonneg (hv i hi) hpos.le) hsel
    (by intro i _; simp) x
  exact ⟨P, ws, hP, hws, hs⟩

/-- **C58** (distribution, logarithms). -/
theorem C58_distribution_logs {lo hi : ℝ} {n : ℕ} {v : ℕ → ℝ} {cut M : ℝ} (hn : 2 ≤ n) (h : lo < hi) (hc0 : 0 < cut) (hc1 : cut < 1)
    (hM : IsMax v n M) (x : ℝ) :
    ∃ P ws, newLog lo hi n v cut = .ok P ∧ P.wts = some ws ∧ ((List.range ws.length).map fun j =>
      ws.getD j 0 * (volume {u : unitInterval | ∃ y, P.sample j u = .val y ∧ y ≤ x}).toReal).sum = ∫ t in Set.Iic x, dens P t := by
  obtain ⟨hn0, hmax⟩ := maxTo_eq hM
  have hs : ∀ i, decide (v i - M > Real.log cut) = true ↔ cut < Real.exp (v i - M) := by
    intro i; rw [decide_eq_true_eq, gt_iff_lt, Real.log_lt_iff_lt_exp hc0]
  obtain ⟨_, i, hin, hiM⟩ := hM
  unfold newLog
  rw [if_neg hn0, hmax]
  obtain ⟨P, hP⟩ := build_ok (absc := linAbsc lo hi n) (lin := true) (delta := (hi - lo) / (n - 1 : ℕ))
    (w := relLogVals v n cut) (sel := fun i => decide (v i - M > Real.log cut)) hin (by rw [hs, hiM]; simpa using hc1)
  have hsel : ∀ i < n, decide (v i - M > Real.log cut) = true → 0 < relLogVals v n cut i := by
    intro i _ h'
    unfold relLogVals
    rw [hmax, if_pos (by simpa using h')]
    exact Real.exp_pos _
  obtain ⟨ws, hws, hs⟩ := (build_spec hsel hP).sampler (keep := fun i => cut < Real.exp (v i - M)) hn h (fun i _ => relLogVals_nonneg v n cut i) hsel
    (fun i _ => hs i) x
  exact ⟨P, ws, hP, hws, hs⟩

/-- A sloped interval that ends in zero, and a flat one. -/
example : drawIn 0 1 2 0 (3 / 4) ∈ Set.Icc (0 : ℝ) 1 ∧
    ∫ x in (0 : ℝ)..(drawIn 0 1 2 0 (3 / 4)), line 0 1 2 0 x = 3 / 4 * ∫ x in (0 : ℝ)..1, line 0 1 2 0 x :=
  C58_inverse (by norm_num) (by norm_num) (by norm_num) (by norm_num) (by norm_num) (by norm_num)

example : StrictMonoOn (drawIn 1 4 2 2) (Set.Icc 0 1) := C58_increasing (by norm_num) (by norm_num) (by norm_num) (by norm_num)

example : ∃ P ws, newLin (0 : ℝ) 1 2 (fun i => (i : ℝ)) 0 = .ok P ∧ P.wts = some ws ∧ ((List.range ws.length).map fun j =>
      ws.getD j 0 * (volume {u : unitInterval | ∃ y, P.sample j u = .val y ∧ y ≤ 1 / 2}).toReal).sum = ∫ t in Set.Iic (1 / 2), dens P t :=
  C58_distribution (v := fun i => (i : ℝ)) (M := 1) (by norm_num) (by norm_num) le_rfl (by norm_num) (fun i _ => by positivity)
    ⟨fun i hi => Nat.cast_le_one.2 (by omega), 1, by norm_num, by norm_num⟩ (by norm_num) _

end Verif.PW
