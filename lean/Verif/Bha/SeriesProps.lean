import Verif.Bha.Series
import Verif.Bha.BhaProps
import Mathlib.Data.List.GetD

/-!
# C119: the objects for harmonic analysis
-/

set_option linter.unusedSectionVars false

namespace Verif.Bha

open Real Verif.Vba Finset

/-! ## Lemmas -/

theorem pyRound_near (x : ℝ) : |(pyRound x : ℝ) - x| ≤ 1 / 2 := by
  unfold pyRound
  split_ifs with h
  · have h1 := Int.floor_le (x + 1 / 2)
    have h2 := Int.lt_floor_add_one (x + 1 / 2)
    rw [abs_le]; constructor <;> linarith
  · have h1 := Int.floor_le (-x + 1 / 2)
    have h2 := Int.lt_floor_add_one (-x + 1 / 2)
    push_cast
    rw [abs_le]; constructor <;> linarith

theorem pyRound_int (k : ℤ) : pyRound k = k := by
  have := pyRound_near k
  have h : |((pyRound k - k : ℤ) : ℝ)| < 1 := by push_cast; linarith
  have h' : |pyRound (k : ℝ) - k| < 1 := by exact_mod_cast h
  have := Int.abs_lt_one_iff.1 h'
  omega

theorem mapM_ok {α β ε : Type} {g : α → Except ε β} {h : α → β} (l : List α) (hg : ∀ a ∈ l, g a = .ok (h a)) : l.mapM g = .ok (l.map h) := by
  induction l with
  | nil => rfl
  | cons a l ih =>
    rw [List.mapM_cons, hg a (List.mem_cons_self ..), ih fun b hb => hg b (List.mem_cons_of_mem _ hb)]
    rfl

theorem freq_false {t : Series} (h : t.dtInt = false) (i : ℤ) : t.freq i = (i : ℝ) / (t.dt * t.nfft) := by
  unfold Series.freq; rw [h]; rfl

/-- The transform on its grid is the exact transform there. -/
theorem re_eq {t : Series} (hdt : 0 < t.dt) (k : ℕ) : t.re k = t.realDTFT (k / (t.dt * t.nfft)) := by
  unfold Series.re Series.realDTFT
  refine sum_congr rfl fun j _ => ?_
  rw [mul_comm]
  congr 2
  by_cases h : (t.nfft : ℝ) = 0
  · simp [h]
  · field_simp

theorem im_eq {t : Series} (hdt : 0 < t.dt) (k : ℕ) : t.im k = t.imagDTFT (k / (t.dt * t.nfft)) := by
  unfold Series.im Series.imagDTFT
  rw [neg_inj]
  refine sum_congr rfl fun j _ => ?_
  rw [mul_comm]
  congr 2
  by_cases h : (t.nfft : ℝ) = 0
  · simp [h]
  · field_simp

/-- The projections of a list of frequencies. -/
theorem prjxns_spec (t : Series) (l : List ℝ) :
    Projections (fun i => 2 * π * l.getD i 0 * t.dt) l.length t.n t.samples (prjxns (l.map fun f => (f, t.realDTFT f, -t.imagDTFT f))) := by
  intro i hi
  unfold prjxns
  rw [if_pos (by omega), if_neg (by omega), show 2 * i / 2 = i by omega, show (2 * i + 1) / 2 = i by omega]
  rw [List.getD_eq_getElem _ _ (by simpa using hi), List.getElem_map]
  dsimp only
  rw [List.getD_eq_getElem _ _ hi]
  unfold Series.realDTFT Series.imagDTFT
  rw [neg_neg]
  constructor
  · refine sum_congr rfl fun k _ => ?_
    rw [show 2 * π * l[i] * (k : ℝ) * t.dt = 2 * π * l[i] * t.dt * k by ring]
  · refine sum_congr rfl fun k _ => ?_
    rw [show 2 * π * l[i] * (k : ℝ) * t.dt = 2 * π * l[i] * t.dt * k by ring]

/-- Frequencies that can be told apart: distinct, positive and below half of the sampling rate. -/
def Good (dt : ℝ) (l : List ℝ) : Prop := l.Nodup ∧ ∀ f ∈ l, 0 < f ∧ f < 1 / (2 * dt)

theorem good_resolvable {dt : ℝ} {l : List ℝ} (hdt : 0 < dt) (h : Good dt l) : Resolvable (fun i => 2 * π * l.getD i 0 * dt) l.length := by
  constructor
  · intro i hi
    dsimp only
    rw [List.getD_eq_getElem _ _ hi]
    obtain ⟨h1, h2⟩ := h.2 _ (List.getElem_mem hi)
    rw [lt_div_iff₀ (by positivity)] at h2
    have := pi_pos
    refine ⟨by positivity, ?_⟩
    nlinarith
  · intro i hi j hj he
    dsimp only at he
    rw [List.getD_eq_getElem _ _ hi, List.getD_eq_getElem _ _ hj] at he
    have h1 : l[i] = l[j] := by
      have := mul_right_cancel₀ hdt.ne' he
      exact mul_left_cancel₀ (by positivity) this
    exact (List.Nodup.getElem_inj_iff h.1).1 h1

/-- What the object holds after an analysis at the frequencies `l`: these frequencies, the least squares fit of sinusoids of these frequencies to the samples with the other quantities of `Fits`, and the amplitudes of the sinusoids. -/
def Holds (t : Series) (l : List ℝ) (s : Fit) : Prop :=
  s.flist = l ∧ Fits (fun i => 2 * π * l.getD i 0 * t.dt) l.length t.n t.samples s.stats ∧ s.jac = 1 / s.stats.rdet ∧
  s.hamps = (List.range l.length).map fun i => √(s.stats.A (2 * i) ^ 2 + s.stats.A (2 * i + 1) ^ 2)

theorem multiplet_holds (junk : Arr1) {t : Series} {mode : Mode} {ints : Bool} {flist l : List ℝ} (hdt : 0 < t.dt)
    (hm : flist.mapM (projAt t mode ints) = .ok (l.map fun f => (f, t.realDTFT f, -t.imagDTFT f))) (hl : l.length = flist.length) (hg : Good t.dt l) :
    (2 * flist.length ≤ t.n → ∃ s, multiplet junk t mode ints flist = .ok s ∧ Holds t l s) ∧ (t.n < 2 * flist.length → multiplet junk t mode ints flist = .error (.exc .value)) := by
  obtain ⟨a, b, -⟩ := C118_multiplet_partial junk (good_resolvable hdt hg) (prjxns_spec t l)
  have hfst : (l.map fun f => (f, t.realDTFT f, -t.imagDTFT f)).map Prod.fst = l := by
    rw [List.map_map]
    exact List.map_id _
  unfold multiplet
  simp only [hm, hfst]
  rw [← hl]
  constructor
  · intro hN
    obtain ⟨r, hr, hf⟩ := a hN
    rw [hr]
    exact ⟨_, rfl, rfl, hf, rfl, rfl⟩
  · intro hN
    rw [b hN]

/-! ## C119 -/

/-- **C119** (exact projections).  A `Multiplet` made with `exact` and given frequencies that can be told apart holds their least squares fit if there are at least as many samples as amplitudes, and raises a ValueError otherwise. -/
theorem C119_exact (junk : Arr1) {t : Series} (ints : Bool) {flist : List ℝ} (hdt : 0 < t.dt) (hg : Good t.dt flist) :
    (2 * flist.length ≤ t.n → ∃ s, multiplet junk t .exact ints flist = .ok s ∧ Holds t flist s) ∧ (t.n < 2 * flist.length → multiplet junk t .exact ints flist = .error (.exc .value)) :=
  multiplet_holds junk hdt (mapM_ok flist fun _ _ => rfl) rfl hg

theorem projAt_grid {t : Series} (hdt : 0 < t.dt) (hi : t.dtInt = false) {f : ℝ} (h0 : 0 ≤ t.fIndex f) (h1 : 2 * t.fIndex f ≤ t.nfft) :
    projAt t .grid false f = .ok ((fun f => (f, t.realDTFT f, -t.imagDTFT f)) ((t.fIndex f : ℝ) / (t.dt * t.nfft))) := by
  obtain ⟨k, hk⟩ := Int.eq_ofNat_of_zero_le h0
  have hx : pyIndex t.nfreq (t.fIndex f) = .ok k := by
    unfold pyIndex
    rw [if_pos h0, if_pos (by unfold Series.nfreq; omega), hk]
    rfl
  unfold projAt Series.fInfo
  simp only [hx, freq_false hi]
  rw [hk, re_eq hdt, im_eq hdt]
  simp

/-- **C119** (projections on the grid).  A `Multiplet` made with neither option moves each frequency to the nearest one of the transform's, and if these can be told apart it holds their least squares fit.
(For a list of floating point frequencies and a floating point sampling interval.)
Missing: integer frequencies or sampling intervals and negative frequencies (the `C119_violated`
theorems). -/
theorem C119_grid_partial (junk : Arr1) {t : Series} {flist : List ℝ} (hdt : 0 < t.dt) (hi : t.dtInt = false) (hn : 0 < t.nfft)
    (l : List ℝ) (hl : l = flist.map fun f => (t.fIndex f : ℝ) / (t.dt * t.nfft)) (hg : Good t.dt l) :
    (2 * flist.length ≤ t.n → ∃ s, multiplet junk t .grid false flist = .ok s ∧ Holds t l s) ∧ (t.n < 2 * flist.length → multiplet junk t .grid false flist = .error (.exc .value)) ∧
    ∀ f k, |(t.fIndex f : ℝ) / (t.dt * t.nfft) - f| ≤ |(k : ℤ) / (t.dt * t.nfft) - f| := by
  have hn' : (0 : ℝ) < t.nfft := by exact_mod_cast hn
  have hpos : 0 < t.dt * t.nfft := by positivity
  have hm : flist.mapM (projAt t .grid false) = .ok (l.map fun f => (f, t.realDTFT f, -t.imagDTFT f)) := by
    rw [hl, List.map_map]
    refine mapM_ok flist fun f hf => ?_
    obtain ⟨h1, h2⟩ := hg.2 _ (by rw [hl]; exact List.mem_map_of_mem hf)
    have h3 : (0 : ℝ) < t.fIndex f := by
      rcases lt_or_ge 0 (t.fIndex f : ℝ) with h | h
      · exact h
      · exact absurd h1 (not_lt.2 (div_nonpos_of_nonpos_of_nonneg h hpos.le))
    have h4 : 2 * (t.fIndex f : ℝ) < t.nfft := by
      rw [div_lt_div_iff₀ hpos (by positivity)] at h2
      nlinarith
    exact projAt_grid hdt hi (by exact_mod_cast h3.le) (by exact_mod_cast h4.le)
  obtain ⟨a, b⟩ := multiplet_holds junk hdt hm (by rw [hl, List.length_map]) hg
  refine ⟨a, b, fun f k => ?_⟩
  have e : ∀ j : ℤ, (j : ℝ) / (t.dt * t.nfft) - f = ((j : ℝ) - t.nfft * f * t.dt) / (t.dt * t.nfft) := fun j => by field_simp
  rw [e, e, abs_div, abs_div]
  refine div_le_div_of_nonneg_right ?_ (abs_nonneg _)
  have h1 := pyRound_near (t.nfft * f * t.dt)
  by_cases hk : k = t.fIndex f
  · rw [hk]
  · have h2 : (1 : ℝ) ≤ |((k - t.fIndex f : ℤ) : ℝ)| := by
      rw [← Int.cast_abs]
      exact_mod_cast Int.one_le_abs (sub_ne_zero.2 hk)
    have h3 : ((k - t.fIndex f : ℤ) : ℝ) = ((k : ℝ) - t.nfft * f * t.dt) - ((t.fIndex f : ℝ) - t.nfft * f * t.dt) := by push_cast; ring
    rw [h3] at h2
    have h4 := abs_sub ((k : ℝ) - t.nfft * f * t.dt) ((t.fIndex f : ℝ) - t.nfft * f * t.dt)
    unfold Series.fIndex at *
    linarith

theorem harmLoop_ok {t : Series} (hdt : 0 < t.dt) (hi : t.dtInt = false) (hn : 0 < t.nfft) (i0 : ℕ) (l : List ℕ) (hl : ∀ i ∈ l, 2 * (i * i0) ≤ t.nfft) :
    harmLoop t ((i0 : ℝ) / (t.dt * t.nfft)) l = .ok (l.map fun i : ℕ => (fun f => (f, t.realDTFT f, -t.imagDTFT f)) ((i : ℝ) * (i0 / (t.dt * t.nfft)))) := by
  have hn' : (0 : ℝ) < t.nfft := by exact_mod_cast hn
  induction l with
  | nil => rfl
  | cons i l ih =>
    have hidx : t.fIndex ((i : ℝ) * (i0 / (t.dt * t.nfft))) = ((i * i0 : ℕ) : ℤ) := by
      unfold Series.fIndex
      rw [← pyRound_int ((i * i0 : ℕ) : ℤ)]
      congr 1
      push_cast
      field_simp
    have := hl i (List.mem_cons_self ..)
    have hg := projAt_grid hdt hi (f := (i : ℝ) * (i0 / (t.dt * t.nfft))) (by rw [hidx]; positivity) (by rw [hidx]; exact_mod_cast this)
    unfold harmLoop
    unfold projAt at hg
    simp only at hg
    cases hf : t.fInfo ((i : ℝ) * (i0 / (t.dt * t.nfft))) with
    | error e => rw [hf] at hg; cases hg
    | ok v =>
      obtain ⟨a, b, c⟩ := v
      rw [hf] at hg
      simp only [Bool.false_eq_true, if_false, Except.ok.injEq] at hg
      rw [ih fun j hj => hl j (List.mem_cons_of_mem _ hj)]
      simp only [hg, List.map_cons]
      rw [hidx]
      rw [show (((i * i0 : ℕ) : ℤ) : ℝ) / (t.dt * t.nfft) = (i : ℝ) * (i0 / (t.dt * t.nfft)) by push_cast; ring]

/-- **C119** (harmonics).  `Harmonics.analyze` moves the fundamental to the nearest frequency of the transform, and if that is positive and all of its harmonics lie below half of the sampling rate, the object holds the least squares fit of the harmonics.
Missing: amplitudes after a second analysis (`C119_violated_stale`). -/
theorem C119_harmonics_partial (junk : Arr1) {t : Series} {f : ℝ} {m : ℕ} (hdt : 0 < t.dt) (hi : t.dtInt = false) (hm : 0 < m)
    (h0 : 0 < t.fIndex f) (h1 : 2 * (m * t.fIndex f) < t.nfft) :
    (2 * m ≤ t.n → ∃ s, harmonics junk t m f = .ok s ∧ s.flist = [(t.fIndex f : ℝ) / (t.dt * t.nfft)] ∧
      Fits (fun i => 2 * π * ((i + 1) * ((t.fIndex f : ℝ) / (t.dt * t.nfft))) * t.dt) m t.n t.samples s.stats ∧ s.jac = 1 / s.stats.rdet ∧
      s.hamps = (List.range m).map fun i => √(s.stats.A (2 * i) ^ 2 + s.stats.A (2 * i + 1) ^ 2)) ∧
    (t.n < 2 * m → harmonics junk t m f = .error (.exc .value)) := by
  obtain ⟨i0, hi0⟩ := Int.eq_ofNat_of_zero_le h0.le
  have hi0' : 0 < i0 := by omega
  rw [hi0] at h1
  have hb : 2 * (m * i0) < t.nfft := by exact_mod_cast h1
  have hn : 0 < t.nfft := by omega
  have hn' : (0 : ℝ) < t.nfft := by exact_mod_cast hn
  set ff : ℝ := (i0 : ℝ) / (t.dt * t.nfft) with hff
  have hffpos : 0 < ff := by
    have : (0 : ℝ) < i0 := by exact_mod_cast hi0'
    positivity
  have hm1 : i0 ≤ m * i0 := Nat.le_mul_of_pos_left _ hm
  have hinfo : t.fInfo f = .ok (ff, t.realDTFT ff, t.imagDTFT ff) := by
    have hg := projAt_grid hdt hi (f := f) h0.le (by rw [hi0]; omega)
    unfold projAt at hg
    simp only at hg
    cases hf : t.fInfo f with
    | error e => rw [hf] at hg; cases hg
    | ok v =>
      obtain ⟨a, b, c⟩ := v
      rw [hf] at hg
      simp only [Bool.false_eq_true, if_false, Except.ok.injEq, Prod.mk.injEq, neg_inj] at hg
      obtain ⟨rfl, rfl, rfl⟩ := hg
      rw [hi0]
      simp [hff]
  have hloop := harmLoop_ok hdt hi hn i0 (List.range' 2 (m - 1)) (by
    intro i hi
    rw [List.mem_range'_1] at hi
    have : i * i0 ≤ m * i0 := Nat.mul_le_mul_right _ (by omega)
    omega)
  rw [← hff] at hloop
  have hP : Projections (fun i => (i + 1) * (2 * π * ff * t.dt)) m t.n t.samples (prjxns ((ff, t.realDTFT ff, -t.imagDTFT ff) :: (List.range' 2 (m - 1)).map fun i : ℕ => (fun f => (f, t.realDTFT f, -t.imagDTFT f)) ((i : ℝ) * ff))) := by
    have e : ((ff, t.realDTFT ff, -t.imagDTFT ff) :: (List.range' 2 (m - 1)).map fun i : ℕ => (fun f => (f, t.realDTFT f, -t.imagDTFT f)) ((i : ℝ) * ff)) = ((List.range' 1 m).map fun i : ℕ => (i : ℝ) * ff).map fun f => (f, t.realDTFT f, -t.imagDTFT f) := by
      obtain ⟨m, rfl⟩ : ∃ m', m = m' + 1 := ⟨m - 1, by omega⟩
      rw [List.range'_succ, List.map_cons, List.map_cons, List.map_map]
      simp only [Nat.cast_one, one_mul, Nat.add_sub_cancel]
      rfl
    rw [e]
    have := prjxns_spec t ((List.range' 1 m).map fun i : ℕ => (i : ℝ) * ff)
    intro i hi
    have h := this i (by simpa using hi)
    have e2 : 2 * π * ((List.range' 1 m).map fun i : ℕ => (i : ℝ) * ff).getD i 0 * t.dt = (i + 1) * (2 * π * ff * t.dt) := by
      rw [List.getD_eq_getElem _ _ (by simpa using hi)]
      simp
      ring
    simp only [e2] at h
    exact h
  have hpi := pi_pos
  obtain ⟨a, b, -⟩ := C118_harmonics_partial junk (gamma := 2 * π * ff * t.dt) (by positivity) (by
    have e : (m : ℝ) * (2 * π * ff * t.dt) = π * (2 * (m * i0) / t.nfft) := by
      rw [hff]; field_simp
    rw [e]
    have : 2 * ((m : ℝ) * i0) / t.nfft < 1 := by
      rw [div_lt_one hn']
      exact_mod_cast hb
    nlinarith) hP
  have e3 : (fun i : ℕ => 2 * π * (((i : ℝ) + 1) * ff) * t.dt) = fun i : ℕ => ((i : ℝ) + 1) * (2 * π * ff * t.dt) := by
    ext i; ring
  have e4 : ((t.fIndex f : ℤ) : ℝ) / (t.dt * t.nfft) = ff := by rw [hi0, hff]; simp
  rw [e4, e3]
  unfold harmonics
  simp only [hinfo, if_neg hm.ne', hloop]
  constructor
  · intro hN
    obtain ⟨r, hr, hf⟩ := a hN
    rw [hr]
    exact ⟨_, rfl, rfl, hf, rfl, rfl⟩
  · intro hN
    rw [b hN]

/-- **C119** (interpolation).  `qinterp` gives the value of the quadratic through the three points, and raises a ValueError outside of them. -/
theorem C119_qinterp {x0 x1 x2 a b c : ℝ} (h01 : x0 < x1) (h12 : x1 < x2) (x : ℝ) :
    let q := fun x => a + b * x + c * x ^ 2
    (x0 ≤ x → x ≤ x2 → qinterp x [x0, x1, x2] [q x0, q x1, q x2] = .ok (q x)) ∧ (x < x0 ∨ x2 < x → qinterp x [x0, x1, x2] [q x0, q x1, q x2] = .error .value) := by
  intro q
  constructor
  · intro h0 h2
    unfold qinterp
    simp only
    rw [if_neg (by rintro (h | h) <;> linarith)]
    congr 1
    have e1 : x0 - x1 ≠ 0 := by linarith
    have e2 : x0 - x2 ≠ 0 := by linarith
    have e3 : x1 - x2 ≠ 0 := by linarith
    field_simp
    simp only [q]
    ring
  · intro h
    unfold qinterp
    simp only
    rw [if_pos h]

/-- **C119** (interpolated projections).  For frequencies from zero to the last one of the transform, the projections are the values of the quadratics through the transform at three neighbouring frequencies of the grid that bracket the frequency.
Missing: negative frequencies and the top of transforms of odd length (`C119_violated_negative`,
`C119_violated_top`). -/
theorem C119_interp_partial {t : Series} (hdt : 0 < t.dt) (hi : t.dtInt = false) (hn : 4 ≤ t.nfft) {f : ℝ} (h0 : 0 ≤ f) (h1 : t.nfft * f * t.dt ≤ (t.nfft / 2 : ℕ)) (ints : Bool) :
    ∃ k : ℕ, ∃ c s, projAt t .interp ints f = .ok (f, c, s) ∧ k + 2 ≤ t.nfft / 2 ∧ (k : ℝ) / (t.dt * t.nfft) ≤ f ∧ f ≤ (k + 2 : ℕ) / (t.dt * t.nfft) ∧
      (∀ q0 q1 q2 : ℝ, (∀ j ∈ [k, k + 1, k + 2], t.realDTFT (j / (t.dt * t.nfft)) = q0 + q1 * (j / (t.dt * t.nfft)) + q2 * (j / (t.dt * t.nfft)) ^ 2) → c = q0 + q1 * f + q2 * f ^ 2) ∧
      ∀ q0 q1 q2 : ℝ, (∀ j ∈ [k, k + 1, k + 2], -t.imagDTFT (j / (t.dt * t.nfft)) = q0 + q1 * (j / (t.dt * t.nfft)) + q2 * (j / (t.dt * t.nfft)) ^ 2) → s = q0 + q1 * f + q2 * f ^ 2 := by
  have hn' : (0 : ℝ) < t.nfft := by exact_mod_cast (by omega : 0 < t.nfft)
  set D := t.dt * t.nfft with hD
  have hDp : 0 < D := by positivity
  set y := t.nfft * f * t.dt with hy
  have hyf : f = y / D := by rw [hy, hD]; field_simp
  have hy0 : 0 ≤ y := by positivity
  have hr := pyRound_near y
  rw [abs_le] at hr
  -- the first frequency
  set i := t.fIndex f with hidef
  have hiy : i = pyRound y := rfl
  have hi0 : 0 ≤ i := by
    have : (-1 : ℝ) < i := by rw [hiy]; linarith
    have : (-1 : ℤ) < i := by exact_mod_cast this
    omega
  have hi1 : i ≤ (t.nfft / 2 : ℕ) := by
    have : (i : ℝ) < (((t.nfft / 2 : ℕ) : ℤ) : ℝ) + 1 := by rw [hiy, Int.cast_natCast]; linarith
    have : i < ((t.nfft / 2 : ℕ) : ℤ) + 1 := by exact_mod_cast this
    omega
  obtain ⟨k, hk, hk2, hlo, hhi⟩ : ∃ k : ℕ, (if i = 0 then 0 else if i = (t.nfreq : ℤ) - 1 then (t.nfreq : ℤ) - 3 else i - 1) = k ∧ k + 2 ≤ t.nfft / 2 ∧ (k : ℝ) ≤ y ∧ y ≤ (k + 2 : ℕ) := by
    have hq : 2 ≤ t.nfft / 2 := by omega
    unfold Series.nfreq
    by_cases c1 : i = 0
    · refine ⟨0, by rw [if_pos c1]; rfl, by omega, by simpa using hy0, ?_⟩
      rw [← hiy, c1] at hr
      push_cast at hr ⊢
      linarith
    · by_cases c2 : i = ((t.nfft / 2 + 1 : ℕ) : ℤ) - 1
      · refine ⟨t.nfft / 2 - 2, by rw [if_neg c1, if_pos c2]; omega, by omega, ?_, ?_⟩
        · have e : (i : ℝ) = (t.nfft / 2 : ℕ) := by rw [show i = ((t.nfft / 2 : ℕ) : ℤ) by omega, Int.cast_natCast]
          rw [Nat.cast_sub hq]
          rw [← hiy, e] at hr
          push_cast at hr ⊢
          linarith
        · rw [Nat.sub_add_cancel hq]
          exact h1
      · refine ⟨(i - 1).toNat, by rw [if_neg c1, if_neg c2]; omega, by omega, ?_, ?_⟩
        · have : (((i - 1).toNat : ℕ) : ℝ) = i - 1 := by exact_mod_cast (by omega : (((i - 1).toNat : ℕ) : ℤ) = i - 1)
          rw [this, hiy]; linarith
        · have : (((i - 1).toNat + 2 : ℕ) : ℝ) = i + 1 := by exact_mod_cast (by omega : (((i - 1).toNat + 2 : ℕ) : ℤ) = i + 1)
          rw [this, hiy]; linarith
  have hsl : pySlice t.nfreq k (k + 3) = [k, k + 1, k + 2] := by
    unfold pySlice Series.nfreq
    simp only
    rw [if_neg (by omega), if_neg (by omega)]
    rw [show (min (k : ℤ) ((t.nfft / 2 + 1 : ℕ) : ℤ)).toNat = k by omega, show (min ((k : ℤ) + 3) ((t.nfft / 2 + 1 : ℕ) : ℤ)).toNat - k = 3 by omega]
    rfl
  have hfr : ∀ a : ℕ, t.freq ((k : ℤ) + a) = ((k + a : ℕ) : ℝ) / D := fun a => by rw [freq_false hi]; push_cast; rfl
  have hb : t.bracket3 f = ([(k : ℝ) / D, ((k + 1 : ℕ) : ℝ) / D, ((k + 2 : ℕ) : ℝ) / D], [t.re k, t.re (k + 1), t.re (k + 2)], [t.im k, t.im (k + 1), t.im (k + 2)]) := by
    unfold Series.bracket3
    simp only [← hidef, hk, hsl, List.map_cons, List.map_nil]
    have a0 := hfr 0
    have a1 := hfr 1
    have a2 := hfr 2
    simp only [Nat.cast_zero, Nat.cast_one, Nat.cast_ofNat, add_zero] at a0 a1 a2
    rw [show ((k : ℤ) + 0) = k by ring, a0, a1, a2]
  have l01 : (k : ℝ) / D < ((k + 1 : ℕ) : ℝ) / D := by gcongr; exact_mod_cast Nat.lt_succ_self k
  have l12 : ((k + 1 : ℕ) : ℝ) / D < ((k + 2 : ℕ) : ℝ) / D := by gcongr; omega
  have hlo' : (k : ℝ) / D ≤ f := by rw [hyf]; gcongr
  have hhi' : f ≤ ((k + 2 : ℕ) : ℝ) / D := by rw [hyf]; gcongr
  have hqi : ∀ y0 y1 y2, ∃ v, qinterp f [(k : ℝ) / D, ((k + 1 : ℕ) : ℝ) / D, ((k + 2 : ℕ) : ℝ) / D] [y0, y1, y2] = .ok v := by
    intro y0 y1 y2
    unfold qinterp
    simp only
    rw [if_neg (by rintro (h | h) <;> linarith)]
    exact ⟨_, rfl⟩
  obtain ⟨c, hc⟩ := hqi (t.re k) (t.re (k + 1)) (t.re (k + 2))
  obtain ⟨s, hs⟩ := hqi (-t.im k) (-t.im (k + 1)) (-t.im (k + 2))
  refine ⟨k, c, s, ?_, hk2, hlo', hhi', ?_, ?_⟩
  · unfold projAt
    simp only [hb, List.map_cons, List.map_nil, hc, hs]
  · intro q0 q1 q2 hq
    have := (C119_qinterp (a := q0) (b := q1) (c := q2) l01 l12 f).1 hlo' hhi'
    simp only at this
    rw [← hq k (by simp), ← hq (k + 1) (by simp), ← hq (k + 2) (by simp), ← re_eq hdt, ← re_eq hdt, ← re_eq hdt, hc] at this
    exact Except.ok.inj this
  · intro q0 q1 q2 hq
    have := (C119_qinterp (a := q0) (b := q1) (c := q2) l01 l12 f).1 hlo' hhi'
    simp only at this
    rw [← hq k (by simp), ← hq (k + 1) (by simp), ← hq (k + 2) (by simp), ← im_eq hdt, ← im_eq hdt, ← im_eq hdt, hs] at this
    exact Except.ok.inj this

/-! ## Where it fails -/

/-- Eight samples. -/
noncomputable def eight (d : ℕ → ℝ) (dt : ℝ) (b : Bool) : Series := ⟨8, d, dt, b, 8⟩

/-- **C119 fails** for a list of integers: the frequency is moved to the grid (0.75 here), stored as an integer (0), and the metric of that frequency has quotients 0/0; the same list of floating point numbers gives the fit. -/
theorem C119_violated_ints (junk : Arr1) (d : ℕ → ℝ) :
    multiplet junk (eight d (1 / 6) false) .grid true [1] = .error .nan ∧ ∃ s, multiplet junk (eight d (1 / 6) false) .grid false [1] = .ok s ∧ s.flist = [3 / 4] := by
  have hidx : (eight d (1 / 6) false).fIndex 1 = 1 := by
    unfold Series.fIndex eight pyRound
    norm_num [Int.floor_eq_iff]
  have hp : projAt (eight d (1 / 6) false) .grid true 1 = .ok (0, (eight d (1 / 6) false).re 1, -(eight d (1 / 6) false).im 1) := by
    unfold projAt Series.fInfo
    simp only [hidx]
    rw [freq_false rfl]
    simp only [pyIndex, Series.nfreq, eight, pyTrunc]
    norm_num
  constructor
  · unfold multiplet
    rw [mapM_ok (h := fun _ => (0, (eight d (1 / 6) false).re 1, -(eight d (1 / 6) false).im 1)) [1] (by simpa using hp)]
    simp only [List.length_cons, List.length_nil, List.map_cons, List.map_nil]
    have hz : (fun i => 2 * π * [(0 : ℝ)].getD i 0 * (eight d (1 / 6) false).dt) = fun _ => 0 := by
      ext i
      rcases i with _ | i <;> simp
    rw [hz, (C118_violated_zero junk _ d _).1]
  · obtain ⟨a, -, -⟩ := C119_grid_partial junk (t := eight d (1 / 6) false) (flist := [1]) (by simp [eight]) rfl (by simp [eight]) [3 / 4] (by
      simp only [List.map_cons, List.map_nil, hidx]
      simp only [eight]
      norm_num) ⟨by simp, by simp [eight]; norm_num⟩
    obtain ⟨s, hs, h⟩ := a (by simp [eight])
    exact ⟨s, hs, h.1⟩

/-- **C119 fails** for a sampling interval that is an integer object: every frequency of the grid is divided down to zero. -/
theorem C119_violated_dt (junk : Arr1) (d : ℕ → ℝ) :
    multiplet junk (eight d 1 true) .grid false [1 / 4] = .error .nan ∧ ∃ s, multiplet junk (eight d 1 false) .grid false [1 / 4] = .ok s ∧ s.flist = [1 / 4] := by
  have hidx : ∀ b, (eight d 1 b).fIndex (1 / 4) = 2 := by
    intro b
    unfold Series.fIndex eight pyRound
    norm_num [Int.floor_eq_iff]
  have hp : projAt (eight d 1 true) .grid false (1 / 4) = .ok (0, (eight d 1 true).re 2, -(eight d 1 true).im 2) := by
    unfold projAt Series.fInfo
    simp only [hidx]
    simp only [pyIndex, Series.nfreq, eight, Series.freq]
    norm_num
    exact ⟨rfl, rfl⟩
  constructor
  · unfold multiplet
    rw [mapM_ok (h := fun _ => (0, (eight d 1 true).re 2, -(eight d 1 true).im 2)) [1 / 4] (by simpa using hp)]
    simp only [List.length_cons, List.length_nil, List.map_cons, List.map_nil]
    have hz : (fun i => 2 * π * [(0 : ℝ)].getD i 0 * (eight d 1 true).dt) = fun _ => 0 := by
      ext i
      rcases i with _ | i <;> simp
    rw [hz, (C118_violated_zero junk _ d _).1]
  · obtain ⟨a, -, -⟩ := C119_grid_partial junk (t := eight d 1 false) (flist := [1 / 4]) (by simp [eight]) rfl (by simp [eight]) [1 / 4] (by
      simp only [List.map_cons, List.map_nil, hidx]
      simp only [eight]
      norm_num) ⟨by simp, by simp [eight]; norm_num⟩
    obtain ⟨s, hs, h⟩ := a (by simp [eight])
    exact ⟨s, hs, h.1⟩

/-- **C119 fails** for a negative frequency: the transform is indexed from its end, so that the value returned for the frequency -1 is the one at another frequency. -/
theorem C119_violated_negative :
    let t : Series := ⟨4, fun j => if j = 1 then 1 else 0, 1 / 4, false, 4⟩
    t.fInfo (-1) = .ok (-1, -1, 0) ∧ t.realDTFT (-1) = 0 ∧ t.imagDTFT (-1) = 1 := by
  intro t
  have hidx : t.fIndex (-1) = -1 := by
    simp only [Series.fIndex, t, pyRound]
    norm_num [Int.floor_eq_iff]
  refine ⟨?_, ?_, ?_⟩
  · unfold Series.fInfo
    simp only [hidx]
    rw [freq_false rfl]
    have hre : t.re 2 = -1 := by
      simp only [Series.re, t, sum_range_succ, sum_range_zero]
      norm_num
      rw [show 2 * π * 2 / 4 = π by ring, cos_pi]
    have him : t.im 2 = 0 := by
      simp only [Series.im, t, sum_range_succ, sum_range_zero]
      norm_num
      rw [show 2 * π * 2 / 4 = π by ring, sin_pi]
    have hp : pyIndex t.nfreq (-1) = .ok 2 := by simp only [t, Series.nfreq, pyIndex]; norm_num; rfl
    rw [hp]
    simp only [hre, him, t]
    norm_num
  · simp only [Series.realDTFT, t, sum_range_succ, sum_range_zero]
    norm_num
    rw [show 2 * π * (1 / 4) = π / 2 by ring, cos_pi_div_two]
  · simp only [Series.imagDTFT, t, sum_range_succ, sum_range_zero]
    norm_num
    rw [show 2 * π * (1 / 4) = π / 2 by ring, sin_pi_div_two]

/-- **C119 fails** for interpolation near the Nyquist frequency and a transform of odd size: there is no bracket and a ValueError is raised, although the frequency lies in the range that `f_range` reports; with exact projections there is a fit. -/
theorem C119_violated_top (junk : Arr1) (d : ℕ → ℝ) {f : ℝ} (h0 : 2 / 5 < f) (h1 : f < 1 / 2) (ints : Bool) :
    multiplet junk ⟨5, d, 1, false, 5⟩ .interp ints [f] = .error (.exc .value) ∧ ∃ s, multiplet junk ⟨5, d, 1, false, 5⟩ .exact ints [f] = .ok s := by
  have hidx : (⟨5, d, 1, false, 5⟩ : Series).fIndex f = 2 := by
    simp only [Series.fIndex, pyRound]
    rw [if_pos (by push_cast; linarith), Int.floor_eq_iff]
    push_cast
    constructor <;> linarith
  have hb : (⟨5, d, 1, false, 5⟩ : Series).bracket3 f = ([0, 1 / 5, 2 / 5], [0, 1, 2].map (⟨5, d, 1, false, 5⟩ : Series).re, [0, 1, 2].map (⟨5, d, 1, false, 5⟩ : Series).im) := by
    unfold Series.bracket3
    simp only [hidx, Series.nfreq]
    norm_num [pySlice, Series.freq]
    simp [List.range']
  have hp : projAt ⟨5, d, 1, false, 5⟩ .interp ints f = .error .value := by
    unfold projAt
    simp only [hb, List.map_cons, List.map_nil]
    unfold qinterp
    simp only
    rw [if_pos (Or.inr h0)]
  constructor
  · unfold multiplet
    rw [List.mapM_cons, hp]
    rfl
  · obtain ⟨a, -⟩ := C119_exact junk (t := ⟨5, d, 1, false, 5⟩) ints (flist := [f]) one_pos ⟨by simp, by simp; constructor <;> linarith⟩
    obtain ⟨s, hs, -⟩ := a (by simp)
    exact ⟨s, hs⟩

/-- **C119 fails** after an analysis that raises: `amplitudes` returns what an earlier one found. -/
theorem C119_violated_stale (junk : Arr1) (d : ℕ → ℝ) : ∃ r : Fit,
    let t : Series := ⟨3, d, 1, false, 3⟩
    let s1 := (Mult.mk none none).analyze junk t .exact false [1 / 4]
    let s2 := s1.1.analyze junk t .exact false [1 / 5, 1 / 3]
    s1.2 = none ∧ s1.1.amplitudes = .ok r.hamps ∧ s2.2 = some (.exc .value) ∧ s2.1.fIn = some [1 / 5, 1 / 3] ∧ s2.1.amplitudes = .ok r.hamps ∧ r.hamps.length = 1 := by
  obtain ⟨a, -⟩ := C119_exact junk (t := ⟨3, d, 1, false, 3⟩) false (flist := [1 / 4]) one_pos ⟨by simp, by simp; norm_num⟩
  obtain ⟨r, hr, hh⟩ := a (by simp)
  obtain ⟨-, b⟩ := C119_exact junk (t := ⟨3, d, 1, false, 3⟩) false (flist := [1 / 5, 1 / 3]) one_pos ⟨by simp, by simp; norm_num⟩
  have hb := b (by simp)
  refine ⟨r, ?_⟩
  have hlen : r.hamps.length = 1 := by rw [hh.2.2.2]; simp
  simp only [Mult.analyze, hr, hb, Mult.amplitudes, hlen, and_self]

/-! ## The hypotheses can be met -/

example : Good 1 [1 / 8, 1 / 4] := ⟨by norm_num, by norm_num⟩

example (d : ℕ → ℝ) : Good (eight d 1 false).dt [1 / 8, 1 / 4] ∧ [1 / 8, 1 / 4] = [(1 / 8 : ℝ), 1 / 4].map fun f => ((eight d 1 false).fIndex f : ℝ) / ((eight d 1 false).dt * (eight d 1 false).nfft) := by
  have h1 : (eight d 1 false).fIndex (1 / 8) = 1 := by
    have := pyRound_int 1
    simp only [Series.fIndex, eight]
    norm_num at this ⊢
    exact this
  have h2 : (eight d 1 false).fIndex (1 / 4) = 2 := by
    have := pyRound_int 2
    simp only [Series.fIndex, eight]
    norm_num at this ⊢
    exact this
  refine ⟨⟨by norm_num, by norm_num [eight]⟩, ?_⟩
  rw [List.map_cons, List.map_cons, h1, h2]
  norm_num [eight]

example (d : ℕ → ℝ) : 0 < (eight d 1 false).fIndex (1 / 8) ∧ 2 * (3 * (eight d 1 false).fIndex (1 / 8)) < (eight d 1 false).nfft := by
  have h1 : (eight d 1 false).fIndex (1 / 8) = 1 := by
    have := pyRound_int 1
    simp only [Series.fIndex, eight]
    norm_num at this ⊢
    exact this
  rw [h1]
  simp [eight]

end Verif.Bha
