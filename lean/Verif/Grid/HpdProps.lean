import Verif.Grid.Hpd
import Verif.Grid.GridHist
import Verif.Grid.GridQuadProps
import Verif.Utils.StepperProps

/-!
# Highest posterior density regions: properties C38, C76, C77, C78
-/

set_option linter.unusedSectionVars false
set_option linter.unusedSimpArgs false

namespace Verif.HPD

open MeasureTheory intervalIntegral
open Verif.Grid1 (LogExp listMax realLog Interp le_listMax listMax_mem interp_exists interp_integral)
open Verif.Num (linStepper logStepper C39_linear C39_log)

/-! ### Specification -/

/-- The abscissas of the grid: `n` points from `xlo` to `xhi`, equally spaced in `x` or in `log x`. -/
noncomputable def points (xlo xhi : ℝ) (n : ℕ) (lin : Bool) : List ℝ :=
  (List.range n).map fun i : ℕ => if lin then xlo + i * ((xhi - xlo) / ((n : ℝ) - 1)) else xlo * (xhi / xlo) ^ ((i : ℝ) / ((n : ℝ) - 1))

/-- The (unnormalised) density on the grid, per unit `x` or per unit `log x`. -/
noncomputable def dens (l : List ℝ) (xlo xhi : ℝ) (lin : Bool) : List ℝ :=
  List.zipWith (fun v x => Real.exp v * if lin then 1 else x) l (points xlo xhi l.length lin)

/-- The spacing of the grid in `x` or in `log x`. -/
noncomputable def spacing (xlo xhi : ℝ) (n : ℕ) (lin : Bool) : ℝ := (if lin then xhi - xlo else Real.log (xhi / xlo)) / ((n : ℝ) - 1)

/-- No two neighbouring values are both the smallest. -/
def NoFlatMin (w : List ℝ) : Prop := ∀ i, i + 1 < w.length → ∃ x ∈ w, x < w.getD i 0 ∨ x < w.getD (i + 1) 0

/-- Admissible ranges. -/
def Range (xlo xhi : ℝ) (lin : Bool) : Prop := xlo < xhi ∧ (lin = false → 0 < xlo)

/-! ### Helper lemmas -/

section
variable {K : Type} [Field K] [LinearOrder K] [IsStrictOrderedRing K]

theorem foldl_min_le (l : List K) : ∀ a : K, l.foldl min a ≤ a ∧ ∀ y ∈ l, l.foldl min a ≤ y := by
  induction l with
  | nil => intro a; simp
  | cons b l ih =>
    intro a
    obtain ⟨h1, h2⟩ := ih (min a b)
    refine ⟨le_trans h1 (min_le_left a b), fun y hy => ?_⟩
    rcases List.mem_cons.mp hy with rfl | hy
    · exact le_trans h1 (min_le_right a y)
    · exact h2 y hy

theorem listMin_le {v : List K} {y : K} (h : y ∈ v) : listMin v ≤ y := by
  cases v with
  | nil => simp at h
  | cons a l =>
    rcases List.mem_cons.mp h with rfl | h
    · exact (foldl_min_le l y).1
    · exact (foldl_min_le l a).2 y h

theorem listMin_mem {v : List K} (h : v ≠ []) : listMin v ∈ v := by
  cases v with
  | nil => exact absurd rfl h
  | cons a l =>
    unfold listMin
    dsimp only
    have key : ∀ (l : List K) (a : K), l.foldl min a = a ∨ l.foldl min a ∈ l := by
      intro l
      induction l with
      | nil => intro a; simp
      | cons b l ih =>
        intro a
        rcases ih (min a b) with h | h
        · rw [List.foldl_cons, h]
          rcases min_choice a b with h | h
          · exact Or.inl h
          · right; rw [h]; simp
        · right; rw [List.foldl_cons]; simp [h]
    rcases key l a with h | h
    · rw [h]; simp
    · simp [h]

theorem listMin_smul {s : K} (hs : 0 < s) {v : List K} (h : v ≠ []) : listMin (v.map (s * ·)) = s * listMin v := by
  apply le_antisymm
  · exact listMin_le (List.mem_map.mpr ⟨_, listMin_mem h, rfl⟩)
  · obtain ⟨y, hy, e⟩ := List.mem_map.mp (listMin_mem (v := v.map (s * ·)) (by simpa using h))
    rw [← e]
    exact mul_le_mul_of_nonneg_left (listMin_le hy) hs.le

theorem listMax_add [FloorRing K] (k : K) {v : List K} (h : v ≠ []) : listMax (v.map (· + k)) = listMax v + k := by
  apply le_antisymm
  · obtain ⟨y, hy, e⟩ := List.mem_map.mp (listMax_mem (v := v.map (· + k)) (by simpa using h))
    have := le_listMax hy
    linarith
  · exact le_listMax (List.mem_map.mpr ⟨_, listMax_mem h, rfl⟩)

/-- The content at the minimum is zero only for a flat array. -/
theorem qgt1d_min_pos {m : K} : ∀ {a : List K}, 0 < m → (∀ x ∈ a, m ≤ x) → (∃ x ∈ a, m < x) → 2 ≤ a.length → 0 < qgt1d a m
  | [], _, _, _, h => by simp at h
  | [_], _, _, _, h => by simp at h
  | u :: v :: l, hm, h, ⟨x, hx, hlt⟩, _ => by
    have hpos : ∀ y ∈ u :: v :: l, 0 ≤ y := fun y hy => hm.le.trans (h y hy)
    rw [qgt1d_cons]
    have q0 := qgt1d_nonneg (c := m) (a := v :: l) fun y hy => hpos y (by simp at hy ⊢; tauto)
    have c0 := cellGT_nonneg (c := m) (hpos u (by simp)) (hpos v (by simp))
    by_cases huv : u = m ∧ v = m
    · have hx' : x ∈ v :: l := by
        rcases List.mem_cons.mp hx with rfl | hx
        · exact absurd huv.1 hlt.ne'
        · exact hx
      match l with
      | [] => simp at hx'; exact absurd (hx' ▸ huv.2) hlt.ne'
      | w :: l =>
        have := qgt1d_min_pos (a := v :: w :: l) hm (fun y hy => h y (by simp at hy ⊢; tauto)) ⟨x, hx', hlt⟩ (by simp)
        linarith
    · have := cellGT_min (h u (by simp)) (h v (by simp))
      rw [if_neg huv] at this
      have := h u (by simp)
      have := h v (by simp)
      linarith

theorem trap_smul (s : K) (a : List K) : trap (a.map (s * ·)) = s * trap a := by
  rw [← rowTrap_trap, ← rowTrap_trap]
  have := rowTrap_smul s (fun x : K => x) a
  simpa using this

end

theorem points_spec {xlo xhi : ℝ} {lin : Bool} {n : ℕ} (hn : 2 ≤ n) (hr : Range xlo xhi lin) :
    (if lin then linStepper xlo xhi n else logStepper realLog xlo xhi n) = .ok (points xlo xhi n lin) := by
  cases lin with
  | true =>
    obtain ⟨l, h1, h2, _⟩ := C39_linear xlo xhi n hn
    rw [if_pos rfl, h1, h2]
    simp [points]
  | false =>
    have := hr.2 rfl
    obtain ⟨l, h1, h2, _⟩ := C39_log xlo xhi n hn this (this.trans hr.1)
    rw [if_neg (by simp), h1, h2]
    simp [points]

theorem points_pos {xlo xhi : ℝ} {n : ℕ} (hr : Range xlo xhi false) : ∀ x ∈ points xlo xhi n false, 0 < x := by
  intro x hx
  obtain ⟨i, _, rfl⟩ := List.mem_map.mp hx
  have h := hr.2 rfl
  have : 0 < xhi / xlo := div_pos (h.trans hr.1) h
  simp only [Bool.false_eq_true, if_false]
  positivity

theorem dens_length (l : List ℝ) (xlo xhi : ℝ) (lin : Bool) : (dens l xlo xhi lin).length = l.length := by
  simp [dens, points]

theorem dens_pos {l : List ℝ} {xlo xhi : ℝ} {lin : Bool} (hr : Range xlo xhi lin) : ∀ w ∈ dens l xlo xhi lin, 0 < w := by
  intro w hw
  unfold dens at hw
  rw [List.zipWith_eq_zipWith_take_min] at hw
  obtain ⟨i, hi, rfl⟩ := List.getElem_of_mem hw
  rw [List.getElem_zipWith]
  apply mul_pos (Real.exp_pos _)
  cases lin with
  | true => simp
  | false =>
    simp only [Bool.false_eq_true, if_false]
    apply points_pos hr (n := l.length)
    exact List.mem_of_mem_take (List.getElem_mem _)

theorem spacing_pos {xlo xhi : ℝ} {lin : Bool} {n : ℕ} (hn : 2 ≤ n) (hr : Range xlo xhi lin) : 0 < spacing xlo xhi n lin := by
  unfold spacing
  have : (2 : ℝ) ≤ n := by exact_mod_cast hn
  apply div_pos _ (by linarith)
  cases lin with
  | true => simp [hr.1]
  | false =>
    simp only [Bool.false_eq_true, if_false]
    apply Real.log_pos
    rw [one_lt_div (hr.2 rfl)]
    exact hr.1

/-- The object the constructor builds. -/
noncomputable def built (l : List ℝ) (xlo xhi : ℝ) (lin : Bool) : H1 ℝ where
  logpdf := l
  xvals := points xlo xhi l.length lin
  dx := spacing xlo xhi l.length lin
  lin := lin
  max := listMax l
  spdf := (dens l xlo xhi lin).map (Real.exp (-listMax l) * ·)
  snorm := Real.exp (-listMax l) * qgt1d (dens l xlo xhi lin) (listMin (dens l xlo xhi lin)) * spacing xlo xhi l.length lin
  lml := (flog realLog (Real.exp (-listMax l) * qgt1d (dens l xlo xhi lin) (listMin (dens l xlo xhi lin)) * spacing xlo xhi l.length lin)).map (· + listMax l)

theorem init_spec {l : List ℝ} {xlo xhi : ℝ} {lin : Bool} (hn : 2 ≤ l.length) (hr : Range xlo xhi lin) :
    H1.init realLog l xlo xhi lin = .ok (built l xlo xhi lin) := by
  have hw : dens l xlo xhi lin ≠ [] := by
    intro h
    have := dens_length l xlo xhi lin
    rw [h] at this
    simp at this
    omega
  have hsp : scaled realLog l (points xlo xhi l.length lin) lin = (dens l xlo xhi lin).map (Real.exp (-listMax l) * ·) := by
    unfold scaled dens
    apply List.ext_getElem
    · cases lin <;> simp [points]
    · intro i h1 h2
      cases lin with
      | true =>
        simp only [if_true, List.getElem_map, List.getElem_zipWith, mul_one]
        change Real.exp _ = _
        rw [← Real.exp_add]; congr 1; ring
      | false =>
        simp only [Bool.false_eq_true, if_false, List.getElem_map, List.getElem_zipWith]
        change Real.exp _ * _ = _
        rw [← mul_assoc, ← Real.exp_add]; congr 2; ring
  have hdx : (if lin then (xhi - xlo) / (((l.length : ℤ) : ℝ) - 1) else realLog.lg (xhi / xlo) / (((l.length : ℤ) : ℝ) - 1)) = spacing xlo xhi l.length lin := by
    unfold spacing
    cases lin <;> simp [realLog]
  unfold H1.init
  dsimp only
  rw [points_spec hn hr]
  dsimp only
  rw [if_neg (by intro h; simp [h] at hn), if_neg (by omega), hdx, hsp, listMin_smul (Real.exp_pos _) hw, qgt1d_smul (Real.exp_pos _)]
  rfl

theorem fracgt_formula {l : List ℝ} {xlo xhi : ℝ} {lin : Bool} {h : H1 ℝ} (hn : 2 ≤ l.length) (hr : Range xlo xhi lin)
    (hi : H1.init realLog l xlo xhi lin = .ok h) (t : ℝ) :
    h.fracgt realLog t = if qgt1d (dens l xlo xhi lin) (listMin (dens l xlo xhi lin)) = 0 then .error .zeroDiv
      else .ok (qgt1d (dens l xlo xhi lin) (Real.exp (listMax l + t)) / qgt1d (dens l xlo xhi lin) (listMin (dens l xlo xhi lin))) := by
  rw [init_spec hn hr] at hi
  cases hi
  unfold H1.fracgt built
  dsimp only
  have hs := Real.exp_pos (-listMax l)
  have hd := spacing_pos hn hr
  by_cases h0 : qgt1d (dens l xlo xhi lin) (listMin (dens l xlo xhi lin)) = 0
  · rw [h0, if_pos (by ring), if_pos rfl]
  · rw [if_neg (by positivity), if_neg h0]
    congr 1
    have e : Real.exp t = Real.exp (-listMax l) * Real.exp (listMax l + t) := by rw [← Real.exp_add]; congr 1; ring
    change qgt1d _ (Real.exp t) * _ / _ = _
    rw [e, qgt1d_smul hs]
    field_simp

theorem flat_zero {w : List ℝ} (_ : w ≠ []) (hf : NoFlatMin w) : qgt1d w (listMin w) = trap w := by
  rw [qgt1d_min fun x hx => listMin_le hx]
  have : flatCells w (listMin w) = 0 := by
    unfold flatCells
    rw [Finset.card_eq_zero, Finset.filter_eq_empty_iff]
    rintro i hi ⟨h1, h2⟩
    have := Finset.mem_range.mp hi
    obtain ⟨x, hx, h⟩ := hf i (by omega)
    have hle := listMin_le hx
    rcases h with h | h
    · rw [h1] at h; exact absurd hle (not_le.mpr h)
    · rw [h2] at h; exact absurd hle (not_le.mpr h)
  rw [this]; simp

theorem trap_pos {w : List ℝ} (h2 : 2 ≤ w.length) (hw : ∀ x ∈ w, 0 < x) : 0 < trap w := by
  unfold trap
  apply Finset.sum_pos
  · intro i hi
    have := Finset.mem_range.mp hi
    rw [List.getD_eq_getElem _ _ (by omega), List.getD_eq_getElem _ _ (by omega)]
    have h1 := hw _ (List.getElem_mem (l := w) (n := i) (by omega))
    have h2 := hw _ (List.getElem_mem (l := w) (n := i + 1) (by omega))
    linarith
  · exact ⟨0, Finset.mem_range.mpr (by omega)⟩

theorem dens_ne {l : List ℝ} {xlo xhi : ℝ} {lin : Bool} (hn : 2 ≤ l.length) : dens l xlo xhi lin ≠ [] := by
  intro h
  have := dens_length l xlo xhi lin
  rw [h] at this
  simp at this
  omega

/-! ### C38 -/

/-- The constructor succeeds for every array of at least two values. -/
theorem C38_constructor (l : List ℝ) (xlo xhi : ℝ) (lin : Bool) (hn : 2 ≤ l.length) (hr : Range xlo xhi lin) : ∃ h, H1.init realLog l xlo xhi lin = .ok h :=
  ⟨_, init_spec hn hr⟩

/-- **C38 (partial).** When no two neighbouring values of the density are both the smallest, `fracgt(t)` is the fraction of the integral of the linear interpolant
`p` of the density (per unit `x` or `log x`) coming from where it exceeds the largest `exp(logpdf)` times `exp(t)`; it lies in [0, 1], and is 1 if that level is at
or below all values.  Missing: densities with neighbouring minima (see `C38_violated`). -/
theorem C38_fraction_partial (l : List ℝ) (xlo xhi : ℝ) (lin : Bool) (h : H1 ℝ) (p : ℝ → ℝ) (hn : 2 ≤ l.length) (hr : Range xlo xhi lin)
    (hi : H1.init realLog l xlo xhi lin = .ok h) (hf : NoFlatMin (dens l xlo xhi lin)) (hp : Interp (unif 0 1 l.length) (dens l xlo xhi lin) p) (t : ℝ) :
    ∃ f, h.fracgt realLog t = .ok f ∧ 0 ≤ f ∧ f ≤ 1 ∧
      f = (∫ x in (0 : ℝ)..((l.length : ℝ) - 1), if Real.exp (listMax l + t) < p x then p x else 0) / ∫ x in (0 : ℝ)..((l.length : ℝ) - 1), p x ∧
      ((∀ v ∈ dens l xlo xhi lin, Real.exp (listMax l + t) ≤ v) → f = 1) := by
  have hw := dens_ne (xlo := xlo) (xhi := xhi) (lin := lin) hn
  have hlen := dens_length l xlo xhi lin
  have hpos := dens_pos (l := l) hr
  have htp : 0 < trap (dens l xlo xhi lin) := trap_pos (by omega) hpos
  have e := fracgt_formula hn hr hi t
  rw [flat_zero hw hf, if_neg htp.ne'] at e
  have hnn : ∀ x ∈ dens l xlo xhi lin, 0 ≤ x := fun x hx => (hpos x hx).le
  refine ⟨_, e, div_nonneg (qgt1d_nonneg hnn) htp.le, ?_, ?_, ?_⟩
  · rw [div_le_one htp]; exact qgt1d_le hnn
  · have hp' : Interp (unif 0 1 (dens l xlo xhi lin).length) (dens l xlo xhi lin) p := by rw [hlen]; exact hp
    have i1 := C34_integral _ (Real.exp (listMax l + t)) 0 1 p hw one_pos hp'
    have i2 := (interp_integral (unif_head (by omega)) (unif_last (by omega)) (unif_increasing one_pos _) hp).2.2
    have i3 : Verif.Grid1.trapSum (Verif.Grid1.diffs (unif 0 1 l.length)) (dens l xlo xhi lin) = trap (dens l xlo xhi lin) := by
      have e : ∀ (l : List ℝ) (xs : List ℝ), xs.length = l.length → xs.IsChain (fun s t => t - s = 1) → Verif.Grid1.trapSum (Verif.Grid1.diffs xs) l = trap l := by
        intro l
        induction l with
        | nil => intro xs h _; rw [List.length_eq_zero_iff.mp h]; simp [Verif.Grid1.diffs, Verif.Grid1.trapSum, trap]
        | cons r l ih =>
          intro xs hl hc
          match l, xs, hl, hc, ih with
          | [], [x], _, _, _ => simp [Verif.Grid1.diffs, Verif.Grid1.trapSum, trap]
          | q :: l, x :: y :: xs, hl, hc, ih =>
            have hc := List.isChain_cons_cons.mp hc
            have := ih (y :: xs) (by simpa using hl) hc.2
            rw [trap_cons, ← this]
            simp only [Verif.Grid1.diffs, Verif.Grid1.trapSum, hc.1]
            ring
      exact e _ _ (by simp [unif, hlen]) (unif_chain _ _ _)
    rw [i3] at i2
    rw [hlen] at i1
    simp only [zero_add, mul_one, one_mul] at i1 i2
    rw [i1, i2]
  · intro hle
    rw [div_eq_one_iff_eq htp.ne', ← flat_zero hw hf]
    apply le_antisymm
    · rw [flat_zero hw hf]; exact qgt1d_le hnn
    · exact qgt1d_anti (hle _ (listMin_mem hw)) hnn

/-- **C38.** `fracgt` is never negative and never increases with the level. -/
theorem C38_monotone (l : List ℝ) (xlo xhi : ℝ) (lin : Bool) (h : H1 ℝ) (hn : 2 ≤ l.length) (hr : Range xlo xhi lin)
    (hi : H1.init realLog l xlo xhi lin = .ok h) (t t' f f' : ℝ) (ht : t ≤ t') (hf : h.fracgt realLog t = .ok f) (hf' : h.fracgt realLog t' = .ok f') :
    0 ≤ f' ∧ f' ≤ f := by
  have hpos := dens_pos (l := l) hr
  have hnn : ∀ x ∈ dens l xlo xhi lin, 0 ≤ x := fun x hx => (hpos x hx).le
  have h0 := qgt1d_nonneg (c := listMin (dens l xlo xhi lin)) hnn
  rw [fracgt_formula hn hr hi] at hf hf'
  split_ifs at hf with h1
  rw [if_neg h1] at hf'
  cases hf
  cases hf'
  refine ⟨div_nonneg (qgt1d_nonneg hnn) h0, div_le_div_of_nonneg_right (qgt1d_anti ?_ hnn) h0⟩
  exact Real.exp_le_exp.mpr (by linarith)

/-- **C38.** It raises only for a density that is the same at all points. -/
theorem C38_raises_only_flat (l : List ℝ) (xlo xhi : ℝ) (lin : Bool) (h : H1 ℝ) (hn : 2 ≤ l.length) (hr : Range xlo xhi lin)
    (hi : H1.init realLog l xlo xhi lin = .ok h) (t : ℝ) (hne : ∃ v ∈ dens l xlo xhi lin, ∃ w ∈ dens l xlo xhi lin, v < w) :
    ∃ f, h.fracgt realLog t = .ok f := by
  have hw := dens_ne (xlo := xlo) (xhi := xhi) (lin := lin) hn
  obtain ⟨v, hv, w, hw', hvw⟩ := hne
  have := qgt1d_min_pos (m := listMin (dens l xlo xhi lin)) (dens_pos hr _ (listMin_mem hw)) (fun x hx => listMin_le hx)
    ⟨w, hw', lt_of_le_of_lt (listMin_le hv) hvw⟩ (by rw [dens_length]; exact hn)
  rw [fracgt_formula hn hr hi, if_neg this.ne']
  exact ⟨_, rfl⟩

theorem dens_add (l : List ℝ) (k xlo xhi : ℝ) (lin : Bool) : dens (l.map (· + k)) xlo xhi lin = (dens l xlo xhi lin).map (Real.exp k * ·) := by
  unfold dens
  apply List.ext_getElem
  · simp
  · intro i h1 h2
    simp only [List.getElem_zipWith, List.getElem_map, List.length_map]
    rw [Real.exp_add]; ring

/-- **C38.** Adding a constant to the log density changes no fraction and adds the constant to the log normalisation. -/
theorem C38_shift (l : List ℝ) (xlo xhi k : ℝ) (lin : Bool) (h : H1 ℝ) (hn : 2 ≤ l.length) (hr : Range xlo xhi lin)
    (hi : H1.init realLog l xlo xhi lin = .ok h) : ∃ h', H1.init realLog (l.map (· + k)) xlo xhi lin = .ok h' ∧
      (∀ t, h'.fracgt realLog t = h.fracgt realLog t) ∧ h'.norm realLog = (h.norm realLog).map (· + k) := by
  have hne : l ≠ [] := by intro h; simp [h] at hn
  have hw := dens_ne (xlo := xlo) (xhi := xhi) (lin := lin) hn
  have hn' : 2 ≤ (l.map (· + k)).length := by simpa using hn
  have hk := Real.exp_pos k
  refine ⟨_, init_spec hn' hr, fun t => ?_, ?_⟩
  · rw [fracgt_formula hn' hr (init_spec hn' hr) t, fracgt_formula hn hr hi t, dens_add, listMax_add k hne, listMin_smul hk hw, qgt1d_smul hk]
    have e : Real.exp (listMax l + k + t) = Real.exp k * Real.exp (listMax l + t) := by rw [← Real.exp_add]; congr 1; ring
    rw [e, qgt1d_smul hk]
    by_cases h0 : qgt1d (dens l xlo xhi lin) (listMin (dens l xlo xhi lin)) = 0
    · rw [h0, if_pos (by simp), if_pos rfl]
    · rw [if_neg (by positivity), if_neg h0]
      congr 1
      field_simp
  · rw [init_spec hn hr] at hi
    cases hi
    unfold H1.norm built
    dsimp only
    rw [dens_add, listMax_add k hne, listMin_smul hk hw, qgt1d_smul hk, List.length_map]
    have e : Real.exp (-(listMax l + k)) * (Real.exp k * qgt1d (dens l xlo xhi lin) (listMin (dens l xlo xhi lin))) =
        Real.exp (-listMax l) * qgt1d (dens l xlo xhi lin) (listMin (dens l xlo xhi lin)) := by
      rw [← mul_assoc, ← Real.exp_add]; congr 2; ring
    rw [e, Option.map_map]
    congr 1
    funext x
    simp [add_assoc]

theorem dens_lin (l : List ℝ) (xlo xhi : ℝ) : dens l xlo xhi true = l.map Real.exp := by
  unfold dens
  apply List.ext_getElem
  · simp [points]
  · intro i h1 h2
    simp

/-- **C38 is violated** with neighbouring minima: for the density values 1, 1, 3 the fraction above a level below them all is 3/2, and for a flat density every
fraction raises `ZeroDivisionError`. -/
theorem C38_violated :
    (∃ h, H1.init realLog [0, 0, Real.log 3] 0 2 true = .ok h ∧ h.fracgt realLog (-2) = .ok (3 / 2)) ∧
    (∃ h, H1.init realLog [0, 0] 0 1 true = .ok h ∧ h.lml = none ∧ ∀ t, h.fracgt realLog t = .error .zeroDiv) := by
  have h3 : Real.exp (Real.log 3) = 3 := Real.exp_log (by norm_num)
  have hmx : listMax [(0 : ℝ), 0, Real.log 3] = Real.log 3 := by
    have : 0 < Real.log 3 := Real.log_pos (by norm_num)
    simp [listMax, this.le]
  refine ⟨⟨_, init_spec (by simp) ⟨by norm_num, by simp⟩, ?_⟩, ⟨_, init_spec (by simp) ⟨by norm_num, by simp⟩, ?_, fun t => ?_⟩⟩
  · have hd : dens [0, 0, Real.log 3] 0 2 true = [1, 1, 3] := by rw [dens_lin]; simp [h3]
    rw [fracgt_formula (xlo := 0) (xhi := 2) (lin := true) (by simp) ⟨by norm_num, fun h => by simp at h⟩ (init_spec (by simp) ⟨by norm_num, fun h => by simp at h⟩), hd, hmx]
    have hm : listMin [(1 : ℝ), 1, 3] = 1 := by norm_num [listMin]
    have hq : qgt1d [(1 : ℝ), 1, 3] 1 = 2 := by norm_num [qgt1d, qgtLoop, cellGT]
    have he : Real.exp (Real.log 3 + -2) < 1 := by
      rw [Real.exp_add, h3]
      have h1 : Real.exp (-2) = (Real.exp 1 * Real.exp 1)⁻¹ := by rw [← Real.exp_add, ← Real.exp_neg]; norm_num
      have h2 : 2.7182818283 < Real.exp 1 := Real.exp_one_gt_d9
      rw [h1, ← div_eq_mul_inv, div_lt_one (by positivity)]
      nlinarith
    have hq' : qgt1d [(1 : ℝ), 1, 3] (Real.exp (Real.log 3 + -2)) = 3 := by
      rw [qgt1d_full (by intro x hx; simp only [List.mem_cons, List.not_mem_nil, or_false] at hx; rcases hx with rfl | rfl | rfl <;> linarith)]
      norm_num [trap, Finset.sum_range_succ]
    rw [hm, hq, hq', if_neg (by norm_num)]
  · have hd : dens [0, 0] 0 1 true = [1, 1] := by rw [dens_lin]; simp
    have hm : listMin [(1 : ℝ), 1] = 1 := by norm_num [listMin]
    have hq : qgt1d [(1 : ℝ), 1] 1 = 0 := by norm_num [qgt1d, qgtLoop, cellGT]
    unfold built
    dsimp only
    rw [hd, hm, hq]
    simp [flog]
  · have hd : dens [0, 0] 0 1 true = [1, 1] := by rw [dens_lin]; simp
    rw [fracgt_formula (xlo := 0) (xhi := 1) (lin := true) (by simp) ⟨by norm_num, fun h => by simp at h⟩ (init_spec (by simp) ⟨by norm_num, fun h => by simp at h⟩), hd]
    have hm : listMin [(1 : ℝ), 1] = 1 := by norm_num [listMin]
    have hq : qgt1d [(1 : ℝ), 1] 1 = 0 := by norm_num [qgt1d, qgtLoop, cellGT]
    rw [hm, hq, if_pos rfl]

/-- The hypotheses of `C38_fraction_partial` can be met: the density 1, 3, 2. -/
example : ∃ (l : List ℝ) (p : ℝ → ℝ), 2 ≤ l.length ∧ Range 0 2 true ∧ NoFlatMin (dens l 0 2 true) ∧ Interp (unif 0 1 l.length) (dens l 0 2 true) p := by
  have hd : dens [0, Real.log 3, Real.log 2] 0 2 true = [1, 3, 2] := by
    rw [dens_lin]; simp [Real.exp_log]
  obtain ⟨p, hp⟩ := C34_interpolant_exists [1, 3, 2] 0 1 (by simp) one_pos
  refine ⟨[0, Real.log 3, Real.log 2], p, by simp, ⟨by norm_num, by simp⟩, ?_, ?_⟩
  · rw [hd]
    intro i hi
    refine ⟨1, by simp, ?_⟩
    match i, hi with
    | 0, _ => right; simp
    | 1, _ => left; simp
    | n + 2, hi => simp at hi; omega
  · rw [hd]; exact hp

/-! ### C38 in two dimensions -/

/-- The (unnormalised) density on a two-dimensional grid, per unit of each variable or of its logarithm. -/
noncomputable def dens2 (l : List (List ℝ)) (xs ys : List ℝ) (xlin ylin : Bool) : List (List ℝ) :=
  List.zipWith (fun r x => List.zipWith (fun v y => Real.exp v * (if xlin then 1 else x) * if ylin then 1 else y) r ys) l xs

/-- Admissible arguments: at least two points in each direction, all rows of the same length. -/
structure Args2 (l : List (List ℝ)) (ny : ℕ) (xlo xhi ylo yhi : ℝ) (xlin ylin : Bool) : Prop where
  hnx : 2 ≤ l.length
  hny : 2 ≤ ny
  rows : ∀ r ∈ l, r.length = ny
  x : Range xlo xhi xlin
  y : Range ylo yhi ylin

theorem axis_spec {lo hi : ℝ} {n : ℕ} {lin : Bool} (hn : 2 ≤ n) (hr : Range lo hi lin) :
    axis realLog lo hi n lin = .ok (points lo hi n lin, spacing lo hi n lin) := by
  unfold axis
  rw [points_spec hn hr]
  dsimp only
  rw [if_neg (by omega)]
  unfold spacing
  cases lin <;> simp [realLog]

theorem dens2_getElem {l : List (List ℝ)} {xs ys : List ℝ} {xlin ylin : Bool} (i j : ℕ) (hi : i < (dens2 l xs ys xlin ylin).length)
    (hj : j < ((dens2 l xs ys xlin ylin)[i]).length) (h1 : i < l.length) (h2 : i < xs.length) (h3 : j < (l[i]).length) (h4 : j < ys.length) :
    ((dens2 l xs ys xlin ylin)[i])[j] = Real.exp ((l[i])[j]) * (if xlin then 1 else xs[i]) * (if ylin then 1 else ys[j]) := by
  simp [dens2, List.getElem_zipWith]

theorem dens2_rows {l : List (List ℝ)} {xs ys : List ℝ} {xlin ylin : Bool} {ny : ℕ} (hr : ∀ r ∈ l, r.length = ny) (hy : ys.length = ny) :
    ∀ r ∈ dens2 l xs ys xlin ylin, r.length = ny := by
  intro r hr'
  unfold dens2 at hr'
  obtain ⟨i, hi, rfl⟩ := List.getElem_of_mem hr'
  rw [List.getElem_zipWith, List.length_zipWith, hr _ (List.getElem_mem _), hy]
  simp

theorem dens2_pos {l : List (List ℝ)} {ny : ℕ} {xlo xhi ylo yhi : ℝ} {xlin ylin : Bool} (ha : Args2 l ny xlo xhi ylo yhi xlin ylin) :
    ∀ r ∈ dens2 l (points xlo xhi l.length xlin) (points ylo yhi ny ylin) xlin ylin, ∀ w ∈ r, 0 < w := by
  intro r hr w hw
  unfold dens2 at hr
  obtain ⟨i, hi, rfl⟩ := List.getElem_of_mem hr
  rw [List.getElem_zipWith] at hw
  obtain ⟨j, hj, rfl⟩ := List.getElem_of_mem hw
  rw [List.getElem_zipWith]
  have h1 : 0 < if xlin = true then 1 else (points xlo xhi l.length xlin)[i]'(by simp [points] at hi ⊢; omega) := by
    cases xlin with
    | true => simp
    | false => simpa using points_pos ha.x _ (List.getElem_mem _)
  have h2 : 0 < if ylin = true then 1 else (points ylo yhi ny ylin)[j]'(by simp [points] at hj ⊢; omega) := by
    cases ylin with
    | true => simp
    | false => simpa using points_pos ha.y _ (List.getElem_mem _)
  exact mul_pos (mul_pos (Real.exp_pos _) h1) h2

theorem scaled2_spec {l : List (List ℝ)} {ny : ℕ} {xs ys : List ℝ} {xlin ylin : Bool} (hr : ∀ r ∈ l, r.length = ny) (hx : xs.length = l.length) (hy : ys.length = ny) :
    scaled2 realLog l xs ys xlin ylin = (dens2 l xs ys xlin ylin).map fun r => r.map (Real.exp (-listMax l.flatten) * ·) := by
  have he : ∀ v : ℝ, realLog.ex (v - listMax l.flatten) = Real.exp (-listMax l.flatten) * Real.exp v := by
    intro v
    change Real.exp _ = _
    rw [← Real.exp_add]; congr 1; ring
  unfold scaled2 scaleRows scaleCols dens2
  simp only [he]
  apply List.ext_getElem
  · cases xlin <;> cases ylin <;> simp [hx]
  · intro i h1 h2
    have hi : i < l.length := by simp at h2; omega
    have hri : (l[i]).length = ny := hr _ (List.getElem_mem _)
    apply List.ext_getElem
    · cases xlin <;> cases ylin <;> simp [hri, hy]
    · intro j h3 h4
      cases xlin <;> cases ylin <;> simp <;> ring

theorem qgt2d_smul {s : ℝ} (hs : 0 < s) {c : ℝ} {a : List (List ℝ)} (h2 : 2 ≤ a.length) : qgt2d (a.map fun r => r.map (s * ·)) (s * c) = s * qgt2d a c := by
  rw [qgt2d_rows _ (by simpa using h2), qgt2d_rows _ h2, List.map_map, ← rowTrap_smul]
  congr 1
  apply List.map_congr_left
  intro r _
  exact qgt1d_smul hs

theorem fracgt2_formula {l : List (List ℝ)} {ny : ℕ} {xlo xhi ylo yhi : ℝ} {xlin ylin : Bool} (ha : Args2 l ny xlo xhi ylo yhi xlin ylin) :
    ∃ h, H2.init realLog l ny xlo xhi ylo yhi xlin ylin = .ok h ∧
      let w := dens2 l (points xlo xhi l.length xlin) (points ylo yhi ny ylin) xlin ylin
      ∀ t, h.fracgt realLog t = if qgt2d w (listMin w.flatten) = 0 then .error .zeroDiv
        else .ok (qgt2d w (Real.exp (listMax l.flatten + t)) / qgt2d w (listMin w.flatten)) := by
  have hxl : (points xlo xhi l.length xlin).length = l.length := by simp [points]
  have hyl : (points ylo yhi ny ylin).length = ny := by simp [points]
  set w := dens2 l (points xlo xhi l.length xlin) (points ylo yhi ny ylin) xlin ylin with hw
  have hwl : w.length = l.length := by simp [hw, dens2, hxl]
  have hwr : ∀ r ∈ w, r.length = ny := dens2_rows ha.rows hyl
  have hflat : ∀ {a : List (List ℝ)}, 2 ≤ a.length → (∀ r ∈ a, r.length = ny) → a.flatten ≠ [] := by
    intro a h1 h2 h3
    match a with
    | r :: _ =>
      have := h2 r (by simp)
      rw [List.flatten_eq_nil_iff] at h3
      rw [h3 r (by simp)] at this
      simp at this
      have := ha.hny
      omega
  have hs := Real.exp_pos (-listMax l.flatten)
  have hdx := spacing_pos ha.hnx ha.x
  have hdy := spacing_pos ha.hny ha.y
  unfold H2.init
  rw [axis_spec ha.hnx ha.x]
  dsimp only
  rw [axis_spec ha.hny ha.y]
  dsimp only
  rw [if_neg (hflat ha.hnx ha.rows), scaled2_spec ha.rows hxl hyl, ← hw]
  refine ⟨_, rfl, fun t => ?_⟩
  unfold H2.fracgt
  dsimp only
  have hfm : (w.map fun r => r.map (Real.exp (-listMax l.flatten) * ·)).flatten = w.flatten.map (Real.exp (-listMax l.flatten) * ·) := by
    rw [List.map_flatten]
  rw [hfm, listMin_smul hs (hflat (by rw [hwl]; exact ha.hnx) hwr), qgt2d_smul hs (by rw [hwl]; exact ha.hnx)]
  by_cases h0 : qgt2d w (listMin w.flatten) = 0
  · rw [h0, if_pos (by ring), if_pos rfl]
  · rw [if_neg (by positivity), if_neg h0]
    congr 1
    have e : realLog.ex t = Real.exp (-listMax l.flatten) * Real.exp (listMax l.flatten + t) := by
      change Real.exp t = _
      rw [← Real.exp_add]; congr 1; ring
    rw [e, qgt2d_smul hs (by rw [hwl]; exact ha.hnx)]
    field_simp

/-- **C38, two dimensions (partial).** `fracgt` of a two-dimensional grid is never negative and never increases with the level; when no two neighbours in a row are both
at the smallest value it is at most 1, and it is 1 if the level is at or below all values.  Missing: neighbouring minima. -/
theorem C38_two_dim_partial (l : List (List ℝ)) (ny : ℕ) (xlo xhi ylo yhi : ℝ) (xlin ylin : Bool) (h : H2 ℝ) (ha : Args2 l ny xlo xhi ylo yhi xlin ylin)
    (hi : H2.init realLog l ny xlo xhi ylo yhi xlin ylin = .ok h) (t t' f f' : ℝ) (ht : t ≤ t') (hf : h.fracgt realLog t = .ok f)
    (hf' : h.fracgt realLog t' = .ok f') :
    let w := dens2 l (points xlo xhi l.length xlin) (points ylo yhi ny ylin) xlin ylin
    0 ≤ f' ∧ f' ≤ f ∧ ((∀ r ∈ w, ∀ i, i + 1 < r.length → ∃ x ∈ w.flatten, x < r.getD i 0 ∨ x < r.getD (i + 1) 0) →
      f ≤ 1 ∧ ((∀ x ∈ w.flatten, Real.exp (listMax l.flatten + t) ≤ x) → f = 1)) := by
  intro w
  obtain ⟨h', e, hform⟩ := fracgt2_formula ha
  rw [hi] at e
  cases e
  have hwl : 2 ≤ w.length := by
    have : w.length = l.length := by simp [w, dens2, points]
    rw [this]; exact ha.hnx
  have hpos : ∀ r ∈ w, ∀ x ∈ r, 0 ≤ x := fun r hr x hx => (dens2_pos ha r hr x hx).le
  rw [hform] at hf hf'
  have h0 : 0 ≤ qgt2d w (listMin w.flatten) := (C37_monotone w _ _ hwl hpos (le_refl _)).1
  split_ifs at hf with h1
  rw [if_neg h1] at hf'
  cases hf
  cases hf'
  have hlt : 0 < qgt2d w (listMin w.flatten) := lt_of_le_of_ne h0 (Ne.symm h1)
  refine ⟨div_nonneg (C37_monotone w _ _ hwl hpos (le_refl _)).1 h0,
    div_le_div_of_nonneg_right (C37_monotone w _ _ hwl hpos (Real.exp_le_exp.mpr (by linarith))).2 h0, fun hnf => ?_⟩
  have hfull : ∀ c, qgt2d w c ≤ qgt2d w (listMin w.flatten) := by
    intro c
    rw [qgt2d_rows c hwl, qgt2d_rows _ hwl]
    apply rowTrap_le
    intro r hr
    have hmin : ∀ x ∈ r, listMin w.flatten ≤ x := fun x hx => listMin_le (List.mem_flatten.mpr ⟨r, hr, hx⟩)
    rw [qgt1d_min hmin]
    have : flatCells r (listMin w.flatten) = 0 := by
      unfold flatCells
      rw [Finset.card_eq_zero, Finset.filter_eq_empty_iff]
      rintro i hi ⟨h1, h2⟩
      have := Finset.mem_range.mp hi
      obtain ⟨x, hx, h⟩ := hnf r hr i (by omega)
      have hle := listMin_le hx
      rcases h with h | h
      · rw [h1] at h; exact absurd hle (not_le.mpr h)
      · rw [h2] at h; exact absurd hle (not_le.mpr h)
    rw [this]
    simpa using qgt1d_le (c := c) (hpos r hr)
  refine ⟨by rw [div_le_one hlt]; exact hfull _, fun hle => ?_⟩
  rw [div_eq_one_iff_eq hlt.ne']
  apply le_antisymm (hfull _)
  refine (C37_monotone w _ _ hwl hpos (hle _ (listMin_mem ?_))).2
  intro hnil
  match hw' : w, hwl with
  | r :: _, _ =>
    rw [List.flatten_eq_nil_iff] at hnil
    have hr0 := hnil r (by simp)
    have hr1 : r.length = ny := dens2_rows ha.rows (ys := points ylo yhi ny ylin) (xs := points xlo xhi l.length xlin) (xlin := xlin) (ylin := ylin) (by simp [points]) r (by
      change r ∈ w
      rw [hw']; simp)
    rw [hr0] at hr1
    have := ha.hny
    simp at hr1
    omega

/-- Arguments that meet the hypotheses. -/
example : Args2 [[0, 1], [2, 1]] 2 0 1 1 2 true false := ⟨by simp, by simp, by simp, ⟨by norm_num, by simp⟩, ⟨by norm_num, by simp⟩⟩

/-! ### C76 -/

/-- **C76 (partial).** When no two neighbouring values of the density are both the smallest, `norm()` (and `lml`) is the logarithm of the trapezoid integral of
the density over `x` (or `log x`).  Missing: neighbouring minima (see `C76_violated`). -/
theorem C76_norm_partial (l : List ℝ) (xlo xhi : ℝ) (lin : Bool) (h : H1 ℝ) (hn : 2 ≤ l.length) (hr : Range xlo xhi lin)
    (hi : H1.init realLog l xlo xhi lin = .ok h) (hf : NoFlatMin (dens l xlo xhi lin)) :
    h.norm realLog = some (Real.log (spacing xlo xhi l.length lin * trap (dens l xlo xhi lin))) ∧ h.lml = h.norm realLog := by
  have hw := dens_ne (xlo := xlo) (xhi := xhi) (lin := lin) hn
  have htp : 0 < trap (dens l xlo xhi lin) := trap_pos (by rw [dens_length]; omega) (dens_pos hr)
  have hd := spacing_pos hn hr
  rw [init_spec hn hr] at hi
  cases hi
  refine ⟨?_, rfl⟩
  unfold H1.norm built
  dsimp only
  rw [flat_zero hw hf]
  have hs := Real.exp_pos (-listMax l)
  unfold flog
  rw [if_pos (by positivity)]
  simp only [Option.map_some, Option.some.injEq]
  change Real.log _ + _ = _
  rw [mul_assoc, Real.log_mul hs.ne' (by positivity), Real.log_exp, mul_comm (trap _)]
  ring

/-- **C76.** The normalisation reported is never too large. -/
theorem C76_never_larger (l : List ℝ) (xlo xhi y : ℝ) (lin : Bool) (h : H1 ℝ) (hn : 2 ≤ l.length) (hr : Range xlo xhi lin)
    (hi : H1.init realLog l xlo xhi lin = .ok h) (hy : h.norm realLog = some y) :
    y ≤ Real.log (spacing xlo xhi l.length lin * trap (dens l xlo xhi lin)) := by
  have hw := dens_ne (xlo := xlo) (xhi := xhi) (lin := lin) hn
  have htp : 0 < trap (dens l xlo xhi lin) := trap_pos (by rw [dens_length]; omega) (dens_pos hr)
  have hd := spacing_pos hn hr
  have hq := qgt1d_le (c := listMin (dens l xlo xhi lin)) fun x hx => (dens_pos (l := l) hr x hx).le
  rw [init_spec hn hr] at hi
  cases hi
  unfold H1.norm flog built at hy
  dsimp only at hy
  have hs := Real.exp_pos (-listMax l)
  split_ifs at hy with h0
  · simp only [Option.map_some, Option.some.injEq] at hy
    change Real.log _ + _ = _ at hy
    have h1 : 0 < qgt1d (dens l xlo xhi lin) (listMin (dens l xlo xhi lin)) := by
      by_contra hh
      push Not at hh
      exact absurd h0 (not_lt.mpr (mul_nonpos_of_nonpos_of_nonneg (mul_nonpos_of_nonneg_of_nonpos hs.le hh) hd.le))
    rw [mul_assoc, Real.log_mul hs.ne' (by positivity), Real.log_exp] at hy
    have := Real.log_le_log (by positivity) (mul_le_mul_of_nonneg_left hq hd.le)
    rw [mul_comm (spacing _ _ _ _) (qgt1d _ _)] at this
    linarith
  · simp at hy

/-- **C76 is violated** with neighbouring minima: density values 1, 1, 3 at 0, 1, 2 have the integral 3, the normalisation reported is log 2; for a flat density
it is not finite. -/
theorem C76_violated :
    (∃ h, H1.init realLog [0, 0, Real.log 3] 0 2 true = .ok h ∧ h.norm realLog = some (Real.log 2) ∧ trap (dens [0, 0, Real.log 3] 0 2 true) = 3) ∧
    (∃ h, H1.init realLog [0, 0] 0 1 true = .ok h ∧ h.norm realLog = none ∧ trap (dens [0, 0] 0 1 true) = 1) := by
  have h3 : Real.exp (Real.log 3) = 3 := Real.exp_log (by norm_num)
  have hmx : listMax [(0 : ℝ), 0, Real.log 3] = Real.log 3 := by
    have : 0 < Real.log 3 := Real.log_pos (by norm_num)
    simp [listMax, this.le]
  have hd : dens [0, 0, Real.log 3] 0 2 true = [1, 1, 3] := by rw [dens_lin]; simp [h3]
  have hd' : dens [0, 0] 0 1 true = [1, 1] := by rw [dens_lin]; simp
  refine ⟨⟨_, init_spec (by simp) ⟨by norm_num, by simp⟩, ?_, ?_⟩, ⟨_, init_spec (by simp) ⟨by norm_num, by simp⟩, ?_, ?_⟩⟩
  · unfold H1.norm built
    dsimp only
    have hm : listMin [(1 : ℝ), 1, 3] = 1 := by norm_num [listMin]
    have hq : qgt1d [(1 : ℝ), 1, 3] 1 = 2 := by norm_num [qgt1d, qgtLoop, cellGT]
    rw [hd, hm, hq, hmx]
    have hsp : spacing 0 2 [(0 : ℝ), 0, Real.log 3].length true = 1 := by norm_num [spacing]
    rw [hsp, Real.exp_neg, h3]
    unfold flog
    rw [if_pos (by norm_num)]
    simp only [Option.map_some, Option.some.injEq]
    change Real.log _ + _ = _
    rw [← Real.log_mul (by norm_num) (by norm_num)]
    norm_num
  · rw [hd]; norm_num [trap, Finset.sum_range_succ]
  · unfold H1.norm built
    have hm : listMin [(1 : ℝ), 1] = 1 := by norm_num [listMin]
    have hq : qgt1d [(1 : ℝ), 1] 1 = 0 := by norm_num [qgt1d, qgtLoop, cellGT]
    dsimp only
    rw [hd', hm, hq]
    simp [flog]
  · rw [hd']; norm_num [trap, Finset.sum_range_succ]

/-! ### C77 -/

theorem points_increasing {xlo xhi : ℝ} {lin : Bool} {n : ℕ} (hn : 2 ≤ n) (hr : Range xlo xhi lin) : (points xlo xhi n lin).Pairwise (· < ·) := by
  have hn' : (2 : ℝ) ≤ n := by exact_mod_cast hn
  unfold points
  rw [List.pairwise_map]
  refine List.pairwise_lt_range.imp ?_
  intro i j hij
  have hij : (i : ℝ) < j := by exact_mod_cast hij
  cases lin with
  | true =>
    simp only [if_true]
    have : 0 < (xhi - xlo) / ((n : ℝ) - 1) := div_pos (by linarith [hr.1]) (by linarith)
    nlinarith
  | false =>
    simp only [Bool.false_eq_true, if_false]
    have h0 := hr.2 rfl
    apply mul_lt_mul_of_pos_left _ h0
    apply Real.rpow_lt_rpow_of_exponent_lt
    · rw [one_lt_div h0]; exact hr.1
    · exact div_lt_div_of_pos_right hij (by linarith)

theorem straddles_exp (l : List ℝ) (m t : ℝ) : straddles (l.map fun v => v - m) t = straddles (l.map Real.exp) (Real.exp (m + t)) := by
  induction l with
  | nil => simp [straddles]
  | cons u l ih =>
    cases l with
    | nil => simp [straddles]
    | cons v l =>
      simp only [List.map_cons] at ih
      simp only [List.map_cons, straddles_cons, ih, Real.exp_lt_exp]
      congr 1
      have e1 : ∀ x, x - m < t ↔ x < m + t := fun x => by constructor <;> intro h <;> linarith
      have e2 : ∀ x, t < x - m ↔ m + t < x := fun x => by constructor <;> intro h <;> linarith
      simp only [e1, e2]

/-- **C77 (partial).** With linear steps, when `critlevel` has found the log ratio `t`, no density value is exactly at the critical level, and the density crosses
it at most ten times, the boundaries are returned in increasing order, are the points where the linear interpolant `q` of the log density is at the critical
level, and are as many as the cells across which the density passes the level whose content `fracgt` computes.  Missing: logarithmic steps, for which it fails
(see `C77_violated`), and more than ten crossings. -/
theorem C77_boundaries_partial (l : List ℝ) (xlo xhi p t : ℝ) (h : H1 ℝ) (q : ℝ → ℝ) (hn : 2 ≤ l.length) (hr : xlo < xhi)
    (hi : H1.init realLog l xlo xhi true = .ok h) (hq : Interp (points xlo xhi l.length true) l q) (hne : ∀ v ∈ l, v ≠ listMax l + t)
    (hten : straddles (dens l xlo xhi true) (Real.exp (listMax l + t)) ≤ 10) :
    ∃ b, (h.critlevelTail p t).2 = .ok b ∧ b.Pairwise (· < ·) ∧ b.length = straddles (dens l xlo xhi true) (Real.exp (listMax l + t)) ∧
      (∀ x, x ∈ b ↔ xlo ≤ x ∧ x ≤ xhi ∧ q x = listMax l + t) ∧ (h.critlevelTail p t).1.probs = h.probs ++ [p] ∧ (h.critlevelTail p t).1.deltas = h.deltas ++ [t] ∧
      (h.critlevelTail p t).1.levels = h.levels ++ [listMax l + t] ∧ (h.critlevelTail p t).1.bounds = h.bounds ++ [b] := by
  have hR : Range xlo xhi true := ⟨hr, fun h => by simp at h⟩
  rw [init_spec hn hR] at hi
  cases hi
  have hinc := points_increasing hn hR
  obtain ⟨xs, hx1, hx2, hx3, hx4, hx5⟩ := C39_linear xlo xhi l.length hn
  have hpx : points xlo xhi l.length true = xs := by rw [hx2]; simp [points]
  have hp' : Interp (points xlo xhi l.length true) (l.map fun v => v - listMax l) (fun x => q x - listMax l) := by
    have : ∀ (xs vs : List ℝ), Interp xs vs q → Interp xs (vs.map fun v => v - listMax l) (fun x => q x - listMax l) := by
      intro xs
      induction xs with
      | nil => intro vs h; cases vs <;> simp [Interp] at h
      | cons a xs ih =>
        intro vs h
        match xs, vs, h, ih with
        | [], [u], h, _ => simp only [List.map_cons, List.map_nil, Interp] at h ⊢; rw [h]
        | b :: xs, u :: v :: vs, h, ih =>
          refine ⟨fun x h1 h2 => ?_, ih (v :: vs) h.2⟩
          beta_reduce
          rw [h.1 x h1 h2]; ring
    exact this _ _ hq
  rw [dens_lin] at hten ⊢
  rw [← straddles_exp] at hten ⊢
  have key := C36_crossings_partial (points xlo xhi l.length true) (l.map fun v => v - listMax l) t xlo xhi 10 _ (by rw [hpx, hx4]) (by rw [hpx, hx5])
    (by simp [points]) hinc (by
      intro y hy
      obtain ⟨v, hv, rfl⟩ := List.mem_map.mp hy
      intro h
      exact hne v hv (by linarith)) hp' hten
  obtain ⟨k1, _, k3, k4, k5, k6⟩ := key
  refine ⟨(xvalues (points xlo xhi l.length true) (l.map fun v => v - listMax l) t 10).vals, ?_, k5, k4, fun x => ?_, ?_, ?_, ?_, ?_⟩
  · unfold H1.critlevelTail built
    dsimp only
    rw [if_neg (by rw [k1]; simp)]
    dsimp only
    rw [k3, List.take_take, List.take_of_length_le (by rw [k4]; exact le_min (le_refl _) hten)]
  rotate_left
  iterate 3
    · unfold H1.critlevelTail built
      dsimp only
      rw [if_neg (by rw [k1]; simp)]
  · unfold H1.critlevelTail built
    dsimp only
    rw [if_neg (by rw [k1]; simp)]
    dsimp only
    rw [k3, List.take_take, List.take_of_length_le (by rw [k4]; exact le_min (le_refl _) hten)]
  · rw [k6 x]
    constructor
    · rintro ⟨h1, h2, h3⟩; exact ⟨h1, h2, by linarith⟩
    · rintro ⟨h1, h2, h3⟩; exact ⟨h1, h2, by linarith⟩

/-- The hypotheses can be met: a triangle. -/
example : ∃ q, Interp (points 0 2 3 true) [0, 2, 0] q ∧ (∀ v ∈ [(0 : ℝ), 2, 0], v ≠ listMax [(0 : ℝ), 2, 0] + (-1)) ∧
    straddles (dens [0, 2, 0] 0 2 true) (Real.exp (listMax [(0 : ℝ), 2, 0] + (-1))) ≤ 10 := by
  have hm : listMax [(0 : ℝ), 2, 0] = 2 := by norm_num [listMax]
  obtain ⟨q, hq⟩ := interp_exists (points 0 2 3 true) [0, 2, 0] (by simp [points]) (by simp [points])
    (points_increasing (by norm_num) ⟨by norm_num, fun h => by simp at h⟩)
  refine ⟨q, hq, ?_, ?_⟩
  · rw [hm]; intro v hv; simp at hv; rcases hv with rfl | rfl | rfl <;> norm_num
  · unfold straddles
    refine (Finset.card_filter_le _ _).trans ?_
    rw [dens_length]; simp

/-- Calls of `critlevel`, of which the root finder gave the log ratios; an exception of one does not prevent the next. -/
noncomputable def critlevels (h : H1 ℝ) : List (ℝ × ℝ) → H1 ℝ
  | [] => h
  | (p, t) :: l => critlevels (h.critlevelTail p t).1 l

/-- **C77.** The history lists after any calls: the probability, the log ratio and the level (the maximum of the log density plus the log ratio) of each call, also of those that raised; the density stays as
it was. -/
theorem C77_history (l : List ℝ) (xlo xhi : ℝ) (lin : Bool) (h : H1 ℝ) (hn : 2 ≤ l.length) (hr : Range xlo xhi lin) (hi : H1.init realLog l xlo xhi lin = .ok h) (calls : List (ℝ × ℝ)) :
    let h' := critlevels h calls
    h'.probs = calls.map (·.1) ∧ h'.deltas = calls.map (·.2) ∧ h'.levels = calls.map (fun c => listMax l + c.2) ∧ h'.bounds.length ≤ calls.length ∧ ∀ t, h'.fracgt realLog t = h.fracgt realLog t := by
  rw [init_spec hn hr] at hi
  cases hi
  have key : ∀ (calls : List (ℝ × ℝ)) (h : H1 ℝ), (critlevels h calls).probs = h.probs ++ calls.map (·.1) ∧ (critlevels h calls).deltas = h.deltas ++ calls.map (·.2) ∧
      (critlevels h calls).levels = h.levels ++ calls.map (fun c => h.max + c.2) ∧ (critlevels h calls).bounds.length ≤ h.bounds.length + calls.length ∧
      ∀ t, (critlevels h calls).fracgt realLog t = h.fracgt realLog t := by
    intro calls
    induction calls with
    | nil => intro h; simp [critlevels]
    | cons c calls ih =>
      intro h
      obtain ⟨p, t⟩ := c
      have e : (h.critlevelTail p t).1.probs = h.probs ++ [p] ∧ (h.critlevelTail p t).1.deltas = h.deltas ++ [t] ∧ (h.critlevelTail p t).1.levels = h.levels ++ [h.max + t] ∧
          (h.critlevelTail p t).1.bounds.length ≤ h.bounds.length + 1 ∧ (h.critlevelTail p t).1.max = h.max ∧ ∀ s, (h.critlevelTail p t).1.fracgt realLog s = h.fracgt realLog s := by
        unfold H1.critlevelTail
        dsimp only
        split_ifs
        · exact ⟨rfl, rfl, rfl, by simp, rfl, fun s => rfl⟩
        · exact ⟨rfl, rfl, rfl, by simp, rfl, fun s => rfl⟩
      obtain ⟨e1, e2, e3, e4, e5, e6⟩ := e
      obtain ⟨i1, i2, i3, i4, i5⟩ := ih (h.critlevelTail p t).1
      simp only [critlevels, i1, i2, i3, e1, e2, e3, e5, List.map_cons, List.append_assoc, List.singleton_append, List.length_cons]
      refine ⟨trivial, trivial, trivial, by omega, fun s => ?_⟩
      rw [i5, e6]
  have := key calls (built l xlo xhi lin)
  simpa [built] using this

/-- **C77, violated** for more than ten boundaries of a density with both ends below the level: the call raises and the lists of levels and of boundaries get out of step. -/
theorem C77_room_violated (l : List ℝ) (xlo xhi p t : ℝ) (lin : Bool) (h : H1 ℝ) (hn : 2 ≤ l.length) (hr : Range xlo xhi lin) (hi : H1.init realLog l xlo xhi lin = .ok h)
    (hne : ∀ v ∈ l, v ≠ listMax l + t) (h1 : ∀ v ∈ l.head?, v < listMax l + t) (h2 : ∀ v ∈ l.getLast?, v < listMax l + t) (hten : 10 < straddles l (listMax l + t)) :
    (h.critlevelTail p t).2 = .error .runtime ∧ (h.critlevelTail p t).1.levels.length = h.levels.length + 1 ∧ (h.critlevelTail p t).1.bounds = h.bounds := by
  rw [init_spec hn hr] at hi
  cases hi
  have hnil : l ≠ [] := by rintro rfl; simp at hn
  have hnil' : (l.map fun v => v - listMax l) ≠ [] := by simpa using hnil
  have hs : straddles (l.map fun v => v - listMax l) t = straddles l (listMax l + t) := by
    have : ∀ l' : List ℝ, straddles (l'.map fun v => v - listMax l) t = straddles l' (listMax l + t) := by
      intro l'
      induction l' with
      | nil => simp [straddles]
      | cons u l' ih =>
        cases l' with
        | nil => simp [straddles]
        | cons v l' =>
          simp only [List.map_cons] at ih
          simp only [List.map_cons, straddles_cons, ih, sub_lt_iff_lt_add', lt_sub_iff_add_lt']
    exact this l
  have key : (xvalues (points xlo xhi l.length lin) (l.map fun v => v - listMax l) t 10).ok = false := by
    refine C36_too_many _ _ _ _ hnil' (by simp [points]) ?_ ?_ ?_ (by rw [hs]; exact hten)
    · intro y hy
      obtain ⟨v, hv, rfl⟩ := List.mem_map.mp hy
      intro h
      exact hne v hv (by linarith)
    · have := h1 _ (List.head?_eq_some_head hnil)
      rw [List.head_map]; linarith
    · have := h2 _ (List.getLast?_eq_some_getLast hnil)
      rw [List.getLast_map]; linarith
  unfold H1.critlevelTail built
  dsimp only
  rw [if_pos key]
  exact ⟨rfl, by simp, rfl⟩

/-- **C77 is violated** with logarithmic steps: for a log density 0, 0 on the abscissas 1 and exp 2 the content above the level found for `t = 1` is strictly between
0 and 1, so the density (per unit log x) crosses the level, but there is no boundary, and the level `max + 1` reported is above the whole log density. -/
theorem C77_violated : ∃ h, H1.init realLog [0, 0] 1 (Real.exp 2) false = .ok h ∧ (∃ f, h.fracgt realLog 1 = .ok f ∧ 0 < f ∧ f < 1) ∧
    straddles (dens [0, 0] 1 (Real.exp 2) false) (Real.exp (listMax [(0 : ℝ), 0] + 1)) = 1 ∧ ∀ p, (h.critlevelTail p 1).2 = .ok [] := by
  have h2 : (1 : ℝ) < Real.exp 2 := Real.one_lt_exp_iff.mpr (by norm_num)
  have hR : Range 1 (Real.exp 2) false := ⟨h2, fun _ => one_pos⟩
  have hpts : points 1 (Real.exp 2) 2 false = [1, Real.exp 2] := by
    simp [points, List.range_succ]; norm_num
  have hd : dens [0, 0] 1 (Real.exp 2) false = [1, Real.exp 2] := by
    unfold dens
    simp only [List.length_cons, List.length_nil, Nat.zero_add, Nat.reduceAdd, hpts]
    simp
  have hm : listMax [(0 : ℝ), 0] = 0 := by simp [listMax]
  have hmin : listMin [1, Real.exp 2] = 1 := by simp [listMin, h2.le]
  have h1 : (1 : ℝ) < Real.exp 1 := Real.one_lt_exp_iff.mpr (by norm_num)
  have h12 : Real.exp 1 < Real.exp 2 := Real.exp_lt_exp.mpr (by norm_num)
  have hq1 : qgt1d [1, Real.exp 2] 1 = 1 / 2 * (Real.exp 2 + 1) := by
    rw [qgt1d_cons, qgt1d_single, cellGT_comm, cellGT_mixed h2 (le_refl _)]
    have : Real.exp 2 - 1 ≠ 0 := by linarith
    field_simp; ring
  have hq2 : qgt1d [1, Real.exp 2] (Real.exp 1) = 1 / 2 * (Real.exp 2 + Real.exp 1) * (Real.exp 2 - Real.exp 1) / (Real.exp 2 - 1) := by
    rw [qgt1d_cons, qgt1d_single, cellGT_comm, cellGT_mixed h12 h1.le, add_zero]
  refine ⟨_, init_spec (by simp) hR, ?_, ?_, fun p => ?_⟩
  · refine ⟨_, by rw [fracgt_formula (by simp) hR (init_spec (by simp) hR), hd, hmin, hm, zero_add, hq1, if_neg (by positivity), hq2], ?_, ?_⟩
    · apply div_pos _ (by positivity)
      apply div_pos _ (by linarith)
      apply mul_pos (by positivity); linarith
    · have : 0 < Real.exp 2 - 1 := by linarith
      rw [div_lt_one (by positivity), div_lt_iff₀ this]
      nlinarith
  · rw [hd, hm, zero_add, straddles_cons, if_pos (Or.inl ⟨h1, h12⟩)]
    simp [straddles]
  · unfold H1.critlevelTail built
    dsimp only
    simp only [List.length_cons, List.length_nil, Nat.zero_add, Nat.reduceAdd, hpts, hm, List.map_cons, List.map_nil, sub_zero]
    have hx : xvalues [1, Real.exp 2] [0, 0] 1 10 = {} := by norm_num [xvalues, xvLoop]
    rw [hx]
    simp

/-! ### C78 -/

/-- The standard normal density in `nd` dimensions. -/
noncomputable def stdNormal {nd : ℕ} (z : Fin nd → ℝ) : ℝ := ∏ i, Real.exp (-(z i) ^ 2 / 2) / Real.sqrt (2 * Real.pi)

/-- **C78 (partial).** In one dimension `sig2ratio(1, s)` is the density at distance `s` from the mean relative to the peak density.  Missing: other dimensions (see
`C78_violated`). -/
theorem C78_ratio_partial (s : ℝ) (z : Fin 1 → ℝ) (hz : ∑ i, z i ^ 2 = s ^ 2) : sig2ratio realLog 1 s = stdNormal z / stdNormal (fun _ : Fin 1 => (0 : ℝ)) := by
  have hpi : 0 < Real.sqrt (2 * Real.pi) := Real.sqrt_pos.mpr (by positivity)
  simp only [Finset.univ_unique, Fin.default_eq_zero, Fin.isValue, Finset.sum_singleton] at hz
  unfold sig2ratio stdNormal
  simp only [Finset.univ_unique, Fin.default_eq_zero, Fin.isValue, Finset.prod_singleton, hz]
  change Real.exp _ = _
  have : Real.exp (-(0 : ℝ) ^ 2 / 2) = 1 := by norm_num
  rw [this]
  field_simp
  norm_num

example : ∃ z : Fin 1 → ℝ, ∑ i, z i ^ 2 = (2 : ℝ) ^ 2 := ⟨fun _ => 2, by simp⟩

/-- **C78 is violated** in two dimensions: at distance 1 the relative density is exp(-1/2), but `sig2ratio(2, 1)` is exp(-1). -/
theorem C78_violated : ∃ z : Fin 2 → ℝ, ∑ i, z i ^ 2 = (1 : ℝ) ^ 2 ∧ stdNormal z / stdNormal (fun _ : Fin 2 => (0 : ℝ)) = Real.exp (-(1 / 2)) ∧
    sig2ratio realLog 2 1 < stdNormal z / stdNormal (fun _ : Fin 2 => (0 : ℝ)) := by
  have hpi : 0 < Real.sqrt (2 * Real.pi) := Real.sqrt_pos.mpr (by positivity)
  have e : stdNormal ![1, (0 : ℝ)] / stdNormal (fun _ : Fin 2 => (0 : ℝ)) = Real.exp (-(1 / 2)) := by
    unfold stdNormal
    simp only [Fin.prod_univ_two, Matrix.cons_val_zero, Matrix.cons_val_one, Matrix.cons_val_fin_one]
    have : Real.exp (-(0 : ℝ) ^ 2 / 2) = 1 := by norm_num
    rw [this]
    field_simp
  refine ⟨![1, 0], by simp [Fin.sum_univ_two], e, ?_⟩
  rw [e]
  unfold sig2ratio
  change Real.exp _ < _
  apply Real.exp_lt_exp.mpr
  norm_num

end Verif.HPD
