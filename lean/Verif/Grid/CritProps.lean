import Verif.Grid.CritLevel
import Verif.Grid.HpdProps
import Verif.Utils.NumUtilsProps

/-!
# Properties C95 and C96: critical levels, and densities given by a function
-/

set_option linter.unusedSectionVars false

namespace Verif.HPD

open Verif.Grid1 (LogExp listMax realLog)
open Verif.Num (linStepper logStepper zbracket zLoop)

/-! ### Specification -/

/-- What scipy promises of `brentq`: called with values of opposite signs at the ends, it returns (if it converges) a point within `xtol + rtol * |x|` of which the function changes sign or is zero. -/
def RootFinder (s : Scipy ℝ) : Prop :=
  0 ≤ s.rtol ∧ ∀ f a b tol r, f a * f b < 0 → s.brentq f a b tol = .ok r → ∃ u, |u - r| ≤ tol + s.rtol * |r| ∧ f r * f u ≤ 0

/-- The probability asked for: that of `snsig` standard deviations of a normal distribution if `snsig` is given and not zero, otherwise `p`. -/
def Asked (s : Scipy ℝ) (p snsig : Option ℝ) (q : ℝ) : Prop :=
  (∃ g, g ≠ 0 ∧ snsig = some g ∧ (p = none ∨ p = some 0) ∧ q = s.cdf (g ^ 2) 1) ∨ ((snsig = none ∨ snsig = some 0) ∧ p = some q)

/-- The object after earlier calls of `critlevel(p, snsig, tol)`, whether or not they raised. -/
noncomputable def afterCalls (s : Scipy ℝ) (h : H1 ℝ) (calls : List (Option ℝ × Option ℝ × ℝ)) : H1 ℝ :=
  calls.foldl (fun h q => (h.critlevel s realLog q.1 q.2.1 q.2.2).1) h

/-! ### Helper lemmas -/

theorem crit_fracgt (s : Scipy ℝ) (h : H1 ℝ) (p g : Option ℝ) (tol t : ℝ) : ((h.critlevel s realLog p g tol).1).fracgt realLog t = h.fracgt realLog t := by
  unfold H1.critlevel
  split
  · rfl
  · unfold H1.critlevelTail
    dsimp only
    split_ifs <;> rfl

theorem after_fracgt (s : Scipy ℝ) : ∀ (calls : List (Option ℝ × Option ℝ × ℝ)) (h : H1 ℝ) (t : ℝ), (afterCalls s h calls).fracgt realLog t = h.fracgt realLog t
  | [], _, _ => rfl
  | q :: calls, h, t => by
    change (afterCalls s (h.critlevel s realLog q.1 q.2.1 q.2.2).1 calls).fracgt realLog t = _
    rw [after_fracgt s calls, crit_fracgt]

theorem guess_asked {s : Scipy ℝ} {p g : Option ℝ} {q lr : ℝ} (h : guess s realLog p g = .ok (q, lr)) : Asked s p g q := by
  unfold guess at h
  cases g with
  | none =>
    simp only [Option.filter_none] at h
    cases p with
    | none => simp at h
    | some p => simp at h; exact Or.inr ⟨Or.inl rfl, by rw [h.1]⟩
  | some g =>
    by_cases hg : g = 0
    · subst hg
      simp only [Option.filter, ne_eq, not_true, decide_false, Bool.false_eq_true, if_false] at h
      cases p with
      | none => simp at h
      | some p => simp at h; exact Or.inr ⟨Or.inr rfl, by rw [h.1]⟩
    · simp only [Option.filter, ne_eq, hg, not_false_eq_true, decide_true, if_true] at h
      cases p with
      | none => simp at h; exact Or.inl ⟨g, hg, rfl, Or.inl rfl, h.1.symm⟩
      | some p =>
        by_cases hp : p = 0
        · subst hp
          simp at h
          exact Or.inl ⟨g, hg, rfl, Or.inr rfl, h.1.symm⟩
        · simp [hp] at h

/-- The search finds a level to within the tolerance, for every fraction that does not increase. -/
theorem search_level {s : Scipy ℝ} (hs : RootFinder s) {F : ℝ → Except Err ℝ} {G : ℝ → ℝ} (hF : ∀ t, F t = .ok (G t)) (hG : Antitone G) {p g : Option ℝ} {tol q r : ℝ}
    (h : search s realLog F p g tol = .ok (q, r)) : Asked s p g q ∧ G (r + (tol + s.rtol * |r|)) ≤ q ∧ q ≤ G (r - (tol + s.rtol * |r|)) := by
  unfold search at h
  cases hg : guess s realLog p g with
  | error e => rw [hg] at h; simp at h
  | ok v =>
    obtain ⟨q', lr⟩ := v
    rw [hg] at h
    dsimp only at h
    rw [hF] at h
    dsimp only at h
    cases hz : (zbracket (diff F q') lr (lr - 1 / 10) none 50 (8 / 5)).1 with
    | error e => rw [hz] at h; simp at h
    | ok v =>
      obtain ⟨a, b⟩ := v
      rw [hz] at h
      dsimp only at h
      cases hb : s.brentq (diff F q') a b tol with
      | error e => rw [hb] at h; simp [Except.map] at h
      | ok r' =>
        rw [hb] at h
        simp only [Except.map, Except.ok.injEq, Prod.mk.injEq] at h
        obtain ⟨rfl, rfl⟩ := h
        refine ⟨guess_asked hg, ?_⟩
        have hsgn := (Verif.Num.C41_bracket_partial (diff F q') _ _ _ _ _ none 50 (by norm_num) (by simp) hz).1
        obtain ⟨u, hu, hr⟩ := hs.2 _ _ _ _ _ hsgn hb
        have hd : ∀ t, diff F q' t = G t - q' := fun t => by unfold diff; rw [hF]
        rw [hd, hd] at hr
        have hw : 0 ≤ tol + s.rtol * |r'| := le_trans (abs_nonneg _) hu
        obtain ⟨h1, h2⟩ := abs_le.mp hu
        rcases lt_trichotomy (G r' - q') 0 with hlt | heq | hgt
        · have : 0 ≤ G u - q' := by
            by_contra hc
            push Not at hc
            exact absurd hr (not_le.mpr (mul_pos_of_neg_of_neg hlt hc))
          exact ⟨by linarith [hG (show r' ≤ r' + (tol + s.rtol * |r'|) by linarith)], by linarith [hG (show r' - (tol + s.rtol * |r'|) ≤ u by linarith)]⟩
        · exact ⟨by linarith [hG (show r' ≤ r' + (tol + s.rtol * |r'|) by linarith)], by linarith [hG (show r' - (tol + s.rtol * |r'|) ≤ r' by linarith)]⟩
        · have : G u - q' ≤ 0 := by
            by_contra hc
            push Not at hc
            exact absurd hr (not_le.mpr (mul_pos hgt hc))
          exact ⟨by linarith [hG (show u ≤ r' + (tol + s.rtol * |r'|) by linarith)], by linarith [hG (show r' - (tol + s.rtol * |r'|) ≤ r' by linarith)]⟩

theorem search_error {s : Scipy ℝ} {F : ℝ → Except Err ℝ} (hF : ∀ t, F t = .error .zeroDiv) {p g : Option ℝ} {tol : ℝ} {v : ℝ × ℝ} :
    search s realLog F p g tol ≠ .ok v := by
  unfold search
  cases guess s realLog p g with
  | error e => simp
  | ok v => simp [hF]

/-- Expanding upwards brackets the root. -/
theorem up_phase (f : ℝ → ℝ) (hf : Antitone f) : ∀ (n tries : ℕ) (x1 x2 : ℝ) (calls : List ℝ), n < tries → x2 < x1 → 0 < f x2 → f x1 < f x2 →
    (∀ t, x2 + (x1 - x2) * (13 / 5) ^ n ≤ t → f t < 0) → ∃ y, (zLoop f (8 / 5) tries x1 x2 (f x1) (f x2) calls).1 = .ok y
  | 0, tries + 1, x1, x2, calls, _, _, h2, _, ht => by
    have : f x1 < 0 := ht x1 (by simp)
    unfold zLoop
    rw [if_pos (mul_neg_of_neg_of_pos this h2)]
    exact ⟨_, rfl⟩
  | n + 1, tries + 1, x1, x2, calls, hn, hx, h2, h12, ht => by
    unfold zLoop
    by_cases hs : f x1 * f x2 < 0
    · rw [if_pos hs]; exact ⟨_, rfl⟩
    · have h1 : 0 ≤ f x1 := by
        by_contra hc
        push Not at hc
        exact hs (mul_neg_of_neg_of_pos hc h2)
      rw [if_neg hs, if_pos (by rw [abs_of_nonneg h1, abs_of_pos h2]; exact h12)]
      dsimp only
      have hx' : x1 ≤ x1 + 8 / 5 * (x1 - x2) := by linarith
      refine up_phase f hf n tries _ x2 _ (by omega) (by linarith) h2 (lt_of_le_of_lt (hf hx') h12) fun t h => ht t (le_trans (le_of_eq ?_) h)
      ring

/-- Expanding downwards, then upwards. -/
theorem down_phase (f : ℝ → ℝ) (hf : Antitone f) (n : ℕ) : ∀ (m tries : ℕ) (x1 x2 : ℝ) (calls : List ℝ), m + n < tries → x2 < x1 →
    (∀ t, t ≤ x1 - (x1 - x2) * (13 / 5) ^ m → 0 < f t ∧ f x1 < f t) → (∀ t, x1 + (x1 - x2) * ((13 / 5) ^ n - 1) ≤ t → f t < 0) →
    ∃ y, (zLoop f (8 / 5) tries x1 x2 (f x1) (f x2) calls).1 = .ok y
  | m, tries, x1, x2, calls, hn, hx, hlo, hhi => by
    by_cases hup : 0 < f x2 ∧ f x1 < f x2
    · exact up_phase f hf n tries x1 x2 calls (by omega) hx hup.1 hup.2 fun t h => hhi t (le_trans (le_of_eq (by ring)) h)
    · match m, tries, hn with
      | 0, _, _ => exact absurd (hlo x2 (by simp)) hup
      | m + 1, tries + 1, hn =>
        have h12 : f x1 ≤ f x2 := hf hx.le
        have hp : (1 : ℝ) ≤ (13 / 5) ^ n := one_le_pow₀ (by norm_num)
        have hsgn : ¬ f x1 * f x2 < 0 := by
          intro h
          rcases mul_neg_iff.mp h with ⟨h1, h2⟩ | ⟨h1, h2⟩
          · linarith
          · exact hup ⟨h2, by linarith⟩
        have habs : ¬ |f x1| < |f x2| := by
          intro h
          rcases le_or_gt (f x2) 0 with h2 | h2
          · rw [abs_of_nonpos h2, abs_of_nonpos (by linarith)] at h; linarith
          · have : f x1 = f x2 := by
              by_contra hne
              exact hup ⟨h2, lt_of_le_of_ne h12 hne⟩
            rw [this] at h; exact lt_irrefl _ h
        unfold zLoop
        rw [if_neg hsgn, if_neg habs]
        dsimp only
        refine down_phase f hf n m tries x1 _ _ (by omega) (by linarith) (fun t h => hlo t (le_trans h (le_of_eq (by ring)))) fun t h => hhi t (le_trans ?_ h)
        nlinarith [mul_nonneg (show (0 : ℝ) ≤ 8 / 5 * (x1 - x2) by linarith) (show (0 : ℝ) ≤ (13 / 5) ^ n - 1 by linarith)]

/-- Below a plateau nothing is found. -/
theorem plateau (f : ℝ → ℝ) : ∀ (tries : ℕ) (x1 x2 : ℝ) (calls : List ℝ), x2 < x1 → (∀ t ≤ x1, f t = f x1) →
    (zLoop f (8 / 5) tries x1 x2 (f x1) (f x2) calls).1 = .error .runtime
  | 0, _, _, _, _, _ => rfl
  | tries + 1, x1, x2, calls, hx, hf => by
    unfold zLoop
    rw [hf x2 hx.le, if_neg (not_lt.mpr (mul_self_nonneg _)), if_neg (lt_irrefl _)]
    dsimp only
    have h := plateau f tries x1 (x2 + 8 / 5 * (x2 - x1)) ((x2 + 8 / 5 * (x2 - x1)) :: calls) (by linarith) hf
    exact h

/-- The bracketing step of the search succeeds when the log ratios that matter are within 10^8 and the guess is not on the plateau. -/
theorem bracket_found {G : ℝ → ℝ} (hG : Antitone G) {q lr top : ℝ} (hlr : |lr| ≤ 10 ^ 8) (hhi : ∀ t, 10 ^ 8 ≤ t → G t = 0) (hlo : ∀ t, t ≤ -(2 * 10 ^ 8) → G t = top)
    (hq0 : 0 < q) (hq1 : q < top) (hpl : G lr < top) : ∃ y, (zbracket (fun t => G t - q) lr (lr - 1 / 10) none 50 (8 / 5)).1 = .ok y := by
  unfold zbracket
  rw [if_neg (by linarith)]
  dsimp only
  obtain ⟨h1, h2⟩ := abs_le.mp hlr
  refine down_phase (fun t => G t - q) (fun a b hab => sub_le_sub_right (hG hab) q) 24 24 50 lr (lr - 1 / 10) _ (by norm_num) (by linarith) (fun t ht => ?_) fun t ht => ?_
  · have : t ≤ -(2 * 10 ^ 8) := by
      refine le_trans ht ?_
      have : (8 * 10 ^ 9 : ℝ) ≤ (13 / 5) ^ 24 := by norm_num
      linarith
    rw [hlo t this]
    exact ⟨by linarith, by linarith⟩
  · have : 10 ^ 8 ≤ t := by
      refine le_trans ?_ ht
      have : (8 * 10 ^ 9 : ℝ) ≤ (13 / 5) ^ 24 := by norm_num
      linarith
    rw [hhi t this]
    linarith

/-- What the two `fracgt` have in common: `Q c` is the content above level `c` of the values `w`. -/
structure Frac (F : ℝ → Except Err ℝ) (w : List ℝ) (mx : ℝ) (Q : ℝ → ℝ) : Prop where
  ne : w ≠ []
  pos : ∀ v ∈ w, 0 < v
  anti : Antitone Q
  nonneg : ∀ c, 0 ≤ Q c
  zero : ∀ c, (∀ v ∈ w, v ≤ c) → Q c = 0
  congr : ∀ c d, (∀ v ∈ w, c < v) → (∀ v ∈ w, d < v) → Q c = Q d
  eq : ∀ t, F t = if Q (listMin w) = 0 then .error .zeroDiv else .ok (Q (Real.exp (mx + t)) / Q (listMin w))

theorem frac1 {l : List ℝ} {xlo xhi : ℝ} {lin : Bool} {h : H1 ℝ} (hn : 2 ≤ l.length) (hr : Range xlo xhi lin) (hi : H1.init realLog l xlo xhi lin = .ok h) :
    Frac (h.fracgt realLog) (dens l xlo xhi lin) (listMax l) (qgt1d (dens l xlo xhi lin)) where
  ne := dens_ne hn
  pos := dens_pos hr
  anti := fun _ _ hc => qgt1d_anti hc fun x hx => (dens_pos hr x hx).le
  nonneg := fun _ => qgt1d_nonneg fun x hx => (dens_pos hr x hx).le
  zero := fun _ h => qgt1d_zero h
  congr := fun _ _ h1 h2 => qgt1d_congr h1 h2
  eq := fun t => fracgt_formula hn hr hi t

theorem frac2 {l : List (List ℝ)} {ny : ℕ} {xlo xhi ylo yhi : ℝ} {xlin ylin : Bool} {h : H2 ℝ} (ha : Args2 l ny xlo xhi ylo yhi xlin ylin)
    (hi : H2.init realLog l ny xlo xhi ylo yhi xlin ylin = .ok h) :
    Frac (h.fracgt realLog) (dens2 l (points xlo xhi l.length xlin) (points ylo yhi ny ylin) xlin ylin).flatten (listMax l.flatten)
      (qgt2d (dens2 l (points xlo xhi l.length xlin) (points ylo yhi ny ylin) xlin ylin)) := by
  obtain ⟨h', e, hform⟩ := fracgt2_formula ha
  rw [hi] at e
  cases e
  set w := dens2 l (points xlo xhi l.length xlin) (points ylo yhi ny ylin) xlin ylin with hw
  have hwl : 2 ≤ w.length := by
    have : w.length = l.length := by simp [hw, dens2, points]
    rw [this]; exact ha.hnx
  have hwr : ∀ r ∈ w, r.length = ny := dens2_rows ha.rows (by simp [points])
  have hpos : ∀ r ∈ w, ∀ x ∈ r, 0 < x := dens2_pos ha
  have hmem : ∀ {P : ℝ → Prop}, (∀ v ∈ w.flatten, P v) → ∀ r ∈ w, ∀ x ∈ r, P x := fun h r hr x hx => h x (List.mem_flatten.mpr ⟨r, hr, hx⟩)
  refine ⟨?_, ?_, ?_, ?_, ?_, ?_, hform⟩
  · intro hnil
    match hw' : w, hwl with
    | r :: _, _ =>
      rw [List.flatten_eq_nil_iff] at hnil
      have hr1 := hwr r (by simp)
      rw [hnil r (by simp)] at hr1
      have := ha.hny
      simp at hr1
      omega
  · intro v hv
    obtain ⟨r, hr, hx⟩ := List.mem_flatten.mp hv
    exact hpos r hr v hx
  · exact fun c c' hc => (C37_monotone w c c' hwl (fun r hr x hx => (hpos r hr x hx).le) hc).2
  · exact fun c => (C37_monotone w c c hwl (fun r hr x hx => (hpos r hr x hx).le) (le_refl _)).1
  · exact fun c hc => C37_zero w c hwl (hmem hc)
  · intro c d hc hd
    rw [qgt2d_rows c hwl, qgt2d_rows d hwl]
    congr 1
    exact List.map_congr_left fun r hr => qgt1d_congr (hmem hc r hr) (hmem hd r hr)

theorem Frac.ok {F : ℝ → Except Err ℝ} {w : List ℝ} {mx : ℝ} {Q : ℝ → ℝ} (h : Frac F w mx Q) (h0 : Q (listMin w) ≠ 0) (t : ℝ) :
    F t = .ok (Q (Real.exp (mx + t)) / Q (listMin w)) := by rw [h.eq, if_neg h0]

theorem Frac.antitone {F : ℝ → Except Err ℝ} {w : List ℝ} {mx : ℝ} {Q : ℝ → ℝ} (h : Frac F w mx Q) : Antitone fun t => Q (Real.exp (mx + t)) / Q (listMin w) :=
  fun _ _ hab => div_le_div_of_nonneg_right (h.anti (Real.exp_le_exp.mpr (by linarith))) (h.nonneg _)

theorem Frac.level {F : ℝ → Except Err ℝ} {w : List ℝ} {mx : ℝ} {Q : ℝ → ℝ} (h : Frac F w mx Q) {s : Scipy ℝ} (hs : RootFinder s) {p g : Option ℝ} {tol q r : ℝ}
    (he : search s realLog F p g tol = .ok (q, r)) :
    Asked s p g q ∧ ∃ f f', F (r + (tol + s.rtol * |r|)) = .ok f ∧ F (r - (tol + s.rtol * |r|)) = .ok f' ∧ f ≤ q ∧ q ≤ f' := by
  by_cases h0 : Q (listMin w) = 0
  · exact absurd he (search_error fun t => by rw [h.eq, if_pos h0])
  · obtain ⟨h1, h2, h3⟩ := search_level hs (h.ok h0) h.antitone he
    exact ⟨h1, _, _, h.ok h0 _, h.ok h0 _, h2, h3⟩

theorem diff_ok {F : ℝ → Except Err ℝ} {G : ℝ → ℝ} (hF : ∀ t, F t = .ok (G t)) (q : ℝ) : diff F q = fun t => G t - q := by
  funext t; unfold diff; rw [hF]

theorem Frac.found {F : ℝ → Except Err ℝ} {w : List ℝ} {mx : ℝ} {Q : ℝ → ℝ} (h : Frac F w mx Q) {s : Scipy ℝ} {p g : Option ℝ} {tol q lr t0 f0 f1 : ℝ}
    (hg : guess s realLog p g = .ok (q, lr)) (hw : ∀ v ∈ w, |Real.log v - mx| ≤ 10 ^ 8) (hlr : |lr| ≤ 10 ^ 8) (hq0 : 0 < q) (hq1 : q < 1)
    (h0 : F lr = .ok f0) (h1 : F t0 = .ok f1) (hlt : f0 < f1) :
    ∃ a b, diff F q a * diff F q b < 0 ∧ search s realLog F p g tol = (s.brentq (diff F q) a b tol).map fun r => (q, r) := by
  have hne : Q (listMin w) ≠ 0 := by
    intro hz
    rw [h.eq, if_pos hz] at h0
    cases h0
  rw [h.ok hne] at h0 h1
  cases h0
  cases h1
  have hlow : ∀ t, t ≤ -(2 * 10 ^ 8) → ∀ v ∈ w, Real.exp (mx + t) < v := by
    intro t ht v hv
    rw [← Real.lt_log_iff_exp_lt (h.pos v hv)]
    have := (abs_le.mp (hw v hv)).1
    linarith
  have htop : ∀ t, t ≤ -(2 * 10 ^ 8) → Q (Real.exp (mx + t)) / Q (listMin w) = Q (Real.exp (mx + -(2 * 10 ^ 8))) / Q (listMin w) := by
    intro t ht
    rw [h.congr _ _ (hlow t ht) (hlow _ (le_refl _))]
  have hpos : 0 < Q (listMin w) := lt_of_le_of_ne (h.nonneg _) (Ne.symm hne)
  obtain ⟨y, hy⟩ := bracket_found (G := fun t => Q (Real.exp (mx + t)) / Q (listMin w)) (q := q) (lr := lr) (top := Q (Real.exp (mx + -(2 * 10 ^ 8))) / Q (listMin w)) h.antitone hlr
    (fun t ht => by
      rw [h.zero, zero_div]
      intro v hv
      rw [← Real.log_le_iff_le_exp (h.pos v hv)]
      have := (abs_le.mp (hw v hv)).2
      linarith) htop hq0
    (lt_of_lt_of_le hq1 (by rw [one_le_div hpos]; exact h.anti (hlow _ (le_refl _) _ (listMin_mem h.ne)).le))
    (lt_of_lt_of_le hlt (by
      rcases le_total t0 (-(2 * 10 ^ 8)) with ht | ht
      · exact (htop t0 ht).le
      · exact h.antitone ht))
  have hd := diff_ok (h.ok hne) q
  rw [← hd] at hy
  refine ⟨y.1, y.2, (Verif.Num.C41_bracket_partial (diff F q) lr (lr - 1 / 10) y.1 y.2 _ none 50 (by norm_num) (by simp) hy).1, ?_⟩
  unfold search
  rw [hg]
  dsimp only
  rw [h.ok hne]
  dsimp only
  rw [hy]

theorem Frac.lost {F : ℝ → Except Err ℝ} {w : List ℝ} {mx : ℝ} {Q : ℝ → ℝ} (h : Frac F w mx Q) {s : Scipy ℝ} {p g : Option ℝ} {tol q lr : ℝ}
    (hg : guess s realLog p g = .ok (q, lr)) (h0 : Q (listMin w) ≠ 0) (hw : ∀ v ∈ w, Real.exp (mx + lr) < v) : search s realLog F p g tol = .error .runtime := by
  unfold search
  rw [hg]
  dsimp only
  rw [h.ok h0]
  dsimp only
  have : (zbracket (diff F q) lr (lr - 1 / 10) none 50 (8 / 5)).1 = .error .runtime := by
    unfold zbracket
    rw [if_neg (by linarith)]
    dsimp only
    apply plateau _ _ _ _ _ (by linarith)
    intro t ht
    rw [diff_ok (h.ok h0)]
    dsimp only
    rw [h.congr _ _ (fun v hv => lt_of_le_of_lt (Real.exp_le_exp.mpr (by linarith)) (hw v hv)) hw]
  rw [this]

theorem crit_ok {s : Scipy ℝ} {h h' : H1 ℝ} {p g : Option ℝ} {tol r : ℝ} {b : List ℝ} (hc : h.critlevel s realLog p g tol = (h', .ok (r, b))) :
    ∃ q, search s realLog (h.fracgt realLog) p g tol = .ok (q, r) ∧ h.critlevelTail q r = (h', .ok b) := by
  unfold H1.critlevel at hc
  cases he : search s realLog (h.fracgt realLog) p g tol with
  | error e => rw [he] at hc; simp at hc
  | ok v =>
    rw [he] at hc
    dsimp only at hc
    simp only [Prod.mk.injEq] at hc
    obtain ⟨h1, h2⟩ := hc
    cases ht : (h.critlevelTail v.1 v.2).2 with
    | error e => rw [ht] at h2; simp [Except.map] at h2
    | ok b' =>
      rw [ht] at h2
      simp only [Except.map, Except.ok.injEq, Prod.mk.injEq] at h2
      refine ⟨v.1, by rw [← h2.1], ?_⟩
      rw [← h2.1, ← h2.2, ← ht, ← h1]

theorem guess_spec {s : Scipy ℝ} {p snsig : Option ℝ} {q lr : ℝ}
    (hg : (∃ g, g ≠ 0 ∧ snsig = some g ∧ p = none ∧ q = s.cdf (g ^ 2) 1 ∧ lr = -(g ^ 2 / 2)) ∨ (snsig = none ∧ p = some q ∧ lr = -(s.sqrt (s.ppf q 1) ^ 2 / 2))) :
    guess s realLog p snsig = .ok (q, lr) := by
  rcases hg with ⟨g, g0, rfl, rfl, rfl, rfl⟩ | ⟨rfl, rfl, rfl⟩
  · simp only [guess, Option.filter, ne_eq, g0, not_false_eq_true, decide_true, if_true, sig2ratio, realLog, Real.log_exp]
    congr 2; push_cast; ring
  · simp only [guess, Option.filter, prob2ratio, realLog, Real.log_exp]
    congr 2; push_cast; ring

/-! ### C95 -/

/-- **C95.** When `critlevel` of a one dimensional density returns, after any earlier calls, the region it describes holds the probability asked for, to within the tolerance of the root finder in the level: a level higher by
the tolerance holds no more, a level lower by it no less.  The probability, the log ratio, the level and the boundaries are appended to the lists of the object. -/
theorem C95_level (s : Scipy ℝ) (hs : RootFinder s) (l : List ℝ) (xlo xhi : ℝ) (lin : Bool) (h0 h h' : H1 ℝ) (hn : 2 ≤ l.length) (hr : Range xlo xhi lin)
    (hi : H1.init realLog l xlo xhi lin = .ok h0) (calls : List (Option ℝ × Option ℝ × ℝ)) (hh : h = afterCalls s h0 calls) (p snsig : Option ℝ) (tol r : ℝ) (b : List ℝ)
    (hc : h.critlevel s realLog p snsig tol = (h', .ok (r, b))) :
    ∃ q, Asked s p snsig q ∧
      (∃ f f', h.fracgt realLog (r + (tol + s.rtol * |r|)) = .ok f ∧ h.fracgt realLog (r - (tol + s.rtol * |r|)) = .ok f' ∧ f ≤ q ∧ q ≤ f') ∧
      h'.probs = h.probs ++ [q] ∧ h'.deltas = h.deltas ++ [r] ∧ h'.levels = h.levels ++ [h.max + r] ∧ h'.bounds = h.bounds ++ [b] := by
  obtain ⟨q, h1, h2⟩ := crit_ok hc
  have hF : h.fracgt realLog = h0.fracgt realLog := funext fun t => by rw [hh, after_fracgt]
  obtain ⟨a1, a2⟩ := (frac1 hn hr hi).level hs (hF ▸ h1)
  refine ⟨q, a1, hF ▸ a2, ?_⟩
  unfold H1.critlevelTail at h2
  dsimp only at h2
  split_ifs at h2
  · simp at h2
  simp only [Prod.mk.injEq, Except.ok.injEq] at h2
  obtain ⟨rfl, rfl⟩ := h2
  exact ⟨rfl, rfl, rfl, rfl⟩

/-- **C95, two dimensions.** -/
theorem C95_level_two_dim (s : Scipy ℝ) (hs : RootFinder s) (l : List (List ℝ)) (ny : ℕ) (xlo xhi ylo yhi : ℝ) (xlin ylin : Bool) (h : H2 ℝ) (ha : Args2 l ny xlo xhi ylo yhi xlin ylin)
    (hi : H2.init realLog l ny xlo xhi ylo yhi xlin ylin = .ok h) (p snsig : Option ℝ) (tol q r lev : ℝ) (hc : h.critlevel s realLog p snsig tol = .ok (q, r, lev)) :
    Asked s p snsig q ∧ lev = h.max + r ∧
      ∃ f f', h.fracgt realLog (r + (tol + s.rtol * |r|)) = .ok f ∧ h.fracgt realLog (r - (tol + s.rtol * |r|)) = .ok f' ∧ f ≤ q ∧ q ≤ f' := by
  unfold H2.critlevel at hc
  cases he : search s realLog (h.fracgt realLog) p snsig tol with
  | error e => rw [he] at hc; simp [Except.map] at hc
  | ok v =>
    rw [he] at hc
    simp only [Except.map, Except.ok.injEq, Prod.mk.injEq] at hc
    obtain ⟨rfl, rfl, rfl⟩ := hc
    obtain ⟨a1, a2⟩ := (frac2 ha hi).level hs he
    exact ⟨a1, rfl, a2⟩

/-- **C95.** With both arguments (neither zero) it raises `ValueError`, with none `TypeError`, and the object is unchanged. -/
theorem C95_arguments (s : Scipy ℝ) (h : H1 ℝ) (h2 : H2 ℝ) (p g tol : ℝ) (hp : p ≠ 0) (hg : g ≠ 0) :
    h.critlevel s realLog (some p) (some g) tol = (h, .error .value) ∧ h.critlevel s realLog none none tol = (h, .error .type) ∧
      h2.critlevel s realLog (some p) (some g) tol = .error .value ∧ h2.critlevel s realLog none none tol = .error .type := by
  have e1 : guess s realLog (some p) (some g) = .error .value := by simp [guess, Option.filter, hp, hg]
  have e2 : guess s realLog none none = .error .type := by simp [guess]
  refine ⟨?_, ?_, ?_, ?_⟩ <;> simp [H1.critlevel, H2.critlevel, search, e1, e2, Except.map]

/-- **C95 (partial).** For a probability strictly between 0 and 1 the search calls the root finder, with values of opposite signs, and so can fail only if that does not converge: for every density whose logarithms are within
10^8 of the largest, if the first guess (the log ratio for a normal distribution) is within 10^8 and some level holds more than the guess.  Missing: guesses below all values of the density (see `C95_violated`). -/
theorem C95_found_partial (s : Scipy ℝ) (l : List ℝ) (xlo xhi : ℝ) (lin : Bool) (h : H1 ℝ) (hn : 2 ≤ l.length) (hr : Range xlo xhi lin)
    (hi : H1.init realLog l xlo xhi lin = .ok h) (p snsig : Option ℝ) (tol q lr t f f' : ℝ) (hw : ∀ v ∈ dens l xlo xhi lin, |Real.log v - listMax l| ≤ 10 ^ 8)
    (hg : (∃ g, g ≠ 0 ∧ snsig = some g ∧ p = none ∧ q = s.cdf (g ^ 2) 1 ∧ lr = -(g ^ 2 / 2)) ∨ (snsig = none ∧ p = some q ∧ lr = -(s.sqrt (s.ppf q 1) ^ 2 / 2)))
    (hlr : |lr| ≤ 10 ^ 8) (hq0 : 0 < q) (hq1 : q < 1) (hf : h.fracgt realLog lr = .ok f) (hf' : h.fracgt realLog t = .ok f') (hlt : f < f') :
    ∃ a b fa fb, h.fracgt realLog a = .ok fa ∧ h.fracgt realLog b = .ok fb ∧ (fa - q) * (fb - q) < 0 ∧
      search s realLog (h.fracgt realLog) p snsig tol = (s.brentq (diff (h.fracgt realLog) q) a b tol).map fun r => (q, r) := by
  have hg' := guess_spec hg
  have hF := frac1 hn hr hi
  obtain ⟨a, b, h1, h2⟩ := hF.found (tol := tol) hg' hw hlr hq0 hq1 hf hf' hlt
  have hne : qgt1d (dens l xlo xhi lin) (listMin (dens l xlo xhi lin)) ≠ 0 := by
    intro hz
    rw [hF.eq, if_pos hz] at hf
    cases hf
  refine ⟨a, b, _, _, hF.ok hne a, hF.ok hne b, ?_, h2⟩
  rw [diff_ok (hF.ok hne)] at h1
  exact h1

/-- **C95, two dimensions (partial).**
Missing: guesses below all values of the density (`C95_violated`). -/
theorem C95_found_two_dim_partial (s : Scipy ℝ) (l : List (List ℝ)) (ny : ℕ) (xlo xhi ylo yhi : ℝ) (xlin ylin : Bool) (h : H2 ℝ) (ha : Args2 l ny xlo xhi ylo yhi xlin ylin)
    (hi : H2.init realLog l ny xlo xhi ylo yhi xlin ylin = .ok h) (p snsig : Option ℝ) (tol q lr t f f' : ℝ)
    (hw : ∀ r ∈ dens2 l (points xlo xhi l.length xlin) (points ylo yhi ny ylin) xlin ylin, ∀ v ∈ r, |Real.log v - listMax l.flatten| ≤ 10 ^ 8)
    (hg : (∃ g, g ≠ 0 ∧ snsig = some g ∧ p = none ∧ q = s.cdf (g ^ 2) 1 ∧ lr = -(g ^ 2 / 2)) ∨ (snsig = none ∧ p = some q ∧ lr = -(s.sqrt (s.ppf q 1) ^ 2 / 2)))
    (hlr : |lr| ≤ 10 ^ 8) (hq0 : 0 < q) (hq1 : q < 1) (hf : h.fracgt realLog lr = .ok f) (hf' : h.fracgt realLog t = .ok f') (hlt : f < f') :
    ∃ a b fa fb, h.fracgt realLog a = .ok fa ∧ h.fracgt realLog b = .ok fb ∧ (fa - q) * (fb - q) < 0 ∧
      h.critlevel s realLog p snsig tol = (s.brentq (diff (h.fracgt realLog) q) a b tol).map fun r => (q, r, h.max + r) := by
  have hg' := guess_spec hg
  have hF := frac2 ha hi
  obtain ⟨a, b, h1, h2⟩ := hF.found (tol := tol) hg' (fun v hv => by
    obtain ⟨r, hr, hx⟩ := List.mem_flatten.mp hv
    exact hw r hr v hx) hlr hq0 hq1 hf hf' hlt
  have hne : qgt2d (dens2 l (points xlo xhi l.length xlin) (points ylo yhi ny ylin) xlin ylin)
      (listMin (dens2 l (points xlo xhi l.length xlin) (points ylo yhi ny ylin) xlin ylin).flatten) ≠ 0 := by
    intro hz
    rw [hF.eq, if_pos hz] at hf
    cases hf
  refine ⟨a, b, _, _, hF.ok hne a, hF.ok hne b, ?_, ?_⟩
  · rw [diff_ok (hF.ok hne)] at h1
    exact h1
  · unfold H2.critlevel
    rw [h2]
    cases s.brentq (diff (h.fracgt realLog) q) a b tol <;> rfl

/-- **C95's claim that a level is found is violated**: for every density that is not constant but varies by less than the first guess (whose log ratio is that of a normal distribution), the search moves away from the
solution and `critlevel` raises `RuntimeError`.  The object is unchanged. -/
theorem C95_violated (s : Scipy ℝ) (l : List ℝ) (xlo xhi : ℝ) (lin : Bool) (h : H1 ℝ) (hn : 2 ≤ l.length) (hr : Range xlo xhi lin)
    (hi : H1.init realLog l xlo xhi lin = .ok h) (g tol : ℝ) (hg : g ≠ 0) (hv : ∃ v ∈ dens l xlo xhi lin, ∃ v' ∈ dens l xlo xhi lin, v < v')
    (hflat : ∀ v ∈ dens l xlo xhi lin, Real.exp (listMax l - g ^ 2 / 2) < v) : h.critlevel s realLog none (some g) tol = (h, .error .runtime) := by
  have hg' : guess s realLog none (some g) = .ok (s.cdf (g ^ 2) 1, -(g ^ 2 / 2)) := guess_spec (Or.inl ⟨g, hg, rfl, rfl, rfl, rfl⟩)
  have hF := frac1 hn hr hi
  obtain ⟨f, hf⟩ := C38_raises_only_flat l xlo xhi lin h hn hr hi 0 hv
  have := hF.lost (tol := tol) hg' (fun hz => by rw [hF.eq, if_pos hz] at hf; cases hf) fun v hv => by
    rw [← sub_eq_add_neg]
    exact hflat v hv
  unfold H1.critlevel
  rw [this]

theorem two_points {h : H1 ℝ} {k : ℝ} (hk : 1 < k) (hi : H1.init realLog [0, Real.log k] 0 1 true = .ok h) {t : ℝ} (h1 : 1 ≤ k * Real.exp t) (h2 : t < 0) :
    h.fracgt realLog t = .ok ((k ^ 2 - (k * Real.exp t) ^ 2) / (k ^ 2 - 1)) := by
  have hd : dens [0, Real.log k] 0 1 true = [1, k] := by rw [dens_lin]; simp [Real.exp_log (show 0 < k by linarith)]
  have hm : listMax [0, Real.log k] = Real.log k := by simp [listMax, (Real.log_pos hk).le]
  have hmin : listMin [1, k] = 1 := by simp [listMin, hk.le]
  have hx : k * Real.exp t < k := by nlinarith [(Real.exp_lt_exp.mpr h2).trans_eq Real.exp_zero]
  rw [fracgt_formula (xlo := 0) (xhi := 1) (lin := true) (by simp) ⟨by norm_num, by simp⟩ hi, hd, hm, hmin, Real.exp_add, Real.exp_log (show 0 < k by linarith)]
  have q1 : ∀ c : ℝ, 1 ≤ c → c < k → qgt1d [1, k] c = (k ^ 2 - c ^ 2) / (2 * (k - 1)) := by
    intro c hc1 hc2
    rw [qgt1d_cons, qgt1d_single, cellGT_comm, cellGT_mixed hc2 hc1]
    have : k - 1 ≠ 0 := by linarith
    field_simp
    ring
  have hk1 : (0 : ℝ) < k - 1 := by linarith
  have hk2 : (0 : ℝ) < k ^ 2 - 1 := by nlinarith
  rw [q1 1 (le_refl _) hk, q1 _ h1 hx, if_neg (div_pos (by linarith) (by linarith)).ne']
  congr 1
  field_simp

/-- The densities of `C95_violated` include some for which there is a level with exactly the probability asked for: the density 1, 3/2 with `snsig = 1`, whatever the probability of one standard deviation. -/
theorem C95_violated_level_exists (s : Scipy ℝ) (tol : ℝ) (h0 : 0 < s.cdf 1 1) (h1 : s.cdf 1 1 < 1) :
    ∃ h, H1.init realLog [0, Real.log (3 / 2)] 0 1 true = .ok h ∧ (∃ t, h.fracgt realLog t = .ok (s.cdf 1 1)) ∧ h.critlevel s realLog none (some 1) tol = (h, .error .runtime) := by
  refine ⟨_, init_spec (by simp) ⟨by norm_num, by simp⟩, ?_, ?_⟩
  · set q := s.cdf 1 1
    have hq : 1 ≤ Real.sqrt (9 / 4 - 5 / 4 * q) ^ 2 ∧ Real.sqrt (9 / 4 - 5 / 4 * q) ^ 2 < (3 / 2) ^ 2 ∧ Real.sqrt (9 / 4 - 5 / 4 * q) ^ 2 = 9 / 4 - 5 / 4 * q := by
      rw [Real.sq_sqrt (by linarith)]
      exact ⟨by linarith, by norm_num; linarith, rfl⟩
    have hpos : 0 < Real.sqrt (9 / 4 - 5 / 4 * q) := Real.sqrt_pos.mpr (by linarith)
    have e1 : 1 ≤ Real.sqrt (9 / 4 - 5 / 4 * q) := by nlinarith [hq.1]
    have e2 : Real.sqrt (9 / 4 - 5 / 4 * q) < 3 / 2 := by nlinarith [hq.2.1]
    have hx : 3 / 2 * Real.exp (Real.log (Real.sqrt (9 / 4 - 5 / 4 * q) / (3 / 2))) = Real.sqrt (9 / 4 - 5 / 4 * q) := by
      rw [Real.exp_log (by positivity)]; ring
    refine ⟨Real.log (Real.sqrt (9 / 4 - 5 / 4 * q) / (3 / 2)), ?_⟩
    rw [two_points (by norm_num) (init_spec (by simp) ⟨by norm_num, by simp⟩) (by rw [hx]; exact e1) (Real.log_neg (by positivity) (by linarith)), hx, hq.2.2]
    congr 1
    ring
  · have hd : dens [0, Real.log (3 / 2)] 0 1 true = [1, 3 / 2] := by rw [dens_lin]; simp [Real.exp_log]
    have hm : listMax [0, Real.log (3 / 2)] = Real.log (3 / 2) := by simp [listMax, (Real.log_pos (show (1 : ℝ) < 3 / 2 by norm_num)).le]
    refine C95_violated s _ _ _ _ _ (by simp) ⟨by norm_num, by simp⟩ (init_spec (by simp) ⟨by norm_num, by simp⟩) 1 tol one_ne_zero ?_ ?_
    · rw [hd]; exact ⟨1, by simp, 3 / 2, by simp, by norm_num⟩
    · rw [hd, hm, Real.exp_sub, Real.exp_log (by norm_num)]
      have : (3 / 2 : ℝ) < Real.exp (1 ^ 2 / 2) := by
        have := Real.add_one_lt_exp (show (1 ^ 2 / 2 : ℝ) ≠ 0 by norm_num)
        linarith
      have hlt : 3 / 2 / Real.exp (1 ^ 2 / 2) < 1 := by rw [div_lt_one (Real.exp_pos _)]; exact this
      intro v hv
      simp only [List.mem_cons, List.not_mem_nil, or_false] at hv
      rcases hv with rfl | rfl
      · exact hlt
      · linarith

/-- A root finder for the examples: it gives up unless the interval is already short enough. -/
noncomputable def lazyFinder : Scipy ℝ where
  cdf := fun _ _ => 3 / 4
  ppf := fun _ _ => 1
  sqrt := Real.sqrt
  rtol := 0
  brentq := fun _ a b tol => if |b - a| ≤ tol then .ok a else .error .runtime

/-- The hypotheses of `C95_level` and of `C95_found_partial` can be met: for the density 1, 3 and `snsig = 1` the search ends at once, between the log ratios -1/2 and -3/5. -/
example : RootFinder lazyFinder ∧ ∃ h h' b, H1.init realLog [0, Real.log 3] 0 1 true = .ok h ∧ h.critlevel lazyFinder realLog none (some 1) 1 = (h', .ok (-(1 / 2), b)) ∧
    (∀ v ∈ dens [0, Real.log 3] 0 1 true, |Real.log v - listMax [0, Real.log 3]| ≤ 10 ^ 8) ∧
    ∃ f f', h.fracgt realLog (-(1 / 2)) = .ok f ∧ h.fracgt realLog (-(3 / 5)) = .ok f' ∧ f < f' := by
  have hi := init_spec (l := [0, Real.log 3]) (xlo := 0) (xhi := 1) (lin := true) (by simp) ⟨by norm_num, by simp⟩
  have hd : dens [0, Real.log 3] 0 1 true = [1, 3] := by rw [dens_lin]; simp [Real.exp_log]
  have hm : listMax [0, Real.log 3] = Real.log 3 := by simp [listMax, (Real.log_pos (show (1 : ℝ) < 3 by norm_num)).le]
  have hl3 : 1 < Real.log 3 := by
    rw [Real.lt_log_iff_exp_lt (by norm_num)]
    have := Real.exp_one_lt_d9
    linarith
  have hl3' : Real.log 3 < 6 / 5 := by
    rw [Real.log_lt_iff_lt_exp (by norm_num), show (6 / 5 : ℝ) = 1 + 1 / 5 by norm_num, Real.exp_add]
    have h1 := Real.exp_one_gt_d9
    have h2 := Real.add_one_le_exp (1 / 5 : ℝ)
    nlinarith
  have e1 : Real.exp (-(1 / 2)) ^ 2 = Real.exp (-1) := by rw [← Real.exp_nat_mul]; norm_num
  have e2 : Real.exp (-(3 / 5)) ^ 2 = Real.exp (-(6 / 5)) := by rw [← Real.exp_nat_mul]; norm_num
  have b1 : 1 / 3 < Real.exp (-1) := by
    rw [← Real.log_lt_iff_lt_exp (by norm_num), one_div, Real.log_inv]; linarith
  have b2 : Real.exp (-(6 / 5)) < 1 / 3 := by
    rw [← Real.lt_log_iff_exp_lt (by norm_num), one_div, Real.log_inv]; linarith
  have lvl : ∀ t : ℝ, -1 ≤ t → 1 ≤ 3 * Real.exp t := by
    intro t ht
    have := Real.exp_le_exp.mpr ht
    linarith
  have f1 := two_points (k := 3) (by norm_num) hi (lvl (-(1 / 2)) (by norm_num)) (by norm_num)
  have f2 := two_points (k := 3) (by norm_num) hi (lvl (-(3 / 5)) (by norm_num)) (by norm_num)
  rw [mul_pow, e1] at f1
  rw [mul_pow, e2] at f2
  have hs : search lazyFinder realLog ((built [0, Real.log 3] 0 1 true).fracgt realLog) none (some 1) 1 = .ok (3 / 4, -(1 / 2)) := by
    unfold search
    rw [guess_spec (q := 3 / 4) (lr := -(1 / 2)) (Or.inl ⟨1, one_ne_zero, rfl, rfl, rfl, by norm_num⟩)]
    dsimp only
    rw [f1]
    dsimp only
    rw [Verif.Num.C41_immediate]
    · norm_num [lazyFinder, Except.map]
    · norm_num
    · rw [show (-(1 / 2) - 1 / 10 : ℝ) = -(3 / 5) by norm_num]
      unfold diff
      rw [f1, f2]
      dsimp only
      apply mul_neg_of_neg_of_pos <;> linarith
  have hq : Verif.Grid1.Interp (points 0 1 [0, Real.log 3].length true) [0, Real.log 3] (fun x => Real.log 3 * x) := by
    simp [points, Verif.Grid1.Interp, List.range_succ]
    norm_num
    intro x _ _
    ring
  obtain ⟨b, hb, -⟩ := C77_boundaries_partial [0, Real.log 3] 0 1 (3 / 4) (-(1 / 2)) _ _ (by simp) (by norm_num) hi hq
    (by
      rw [hm]
      intro v hv
      simp only [List.mem_cons, List.not_mem_nil, or_false] at hv
      rcases hv with rfl | rfl <;> intro hv <;> linarith)
    (by
      rw [hd]
      refine le_trans (Finset.card_filter_le _ _) ?_
      simp)
  refine ⟨⟨le_refl _, ?_⟩, _, ((built [0, Real.log 3] 0 1 true).critlevelTail (3 / 4) (-(1 / 2))).1, b, hi, ?_, ?_, _, _, f1, f2, by linarith⟩
  · intro f a b tol r hab hr
    simp only [lazyFinder] at hr
    split_ifs at hr with h
    cases hr
    exact ⟨b, by simpa [lazyFinder] using h, hab.le⟩
  · unfold H1.critlevel
    rw [hs]
    dsimp only
    rw [hb]
    rfl
  · rw [hd, hm]
    intro v hv
    simp only [List.mem_cons, List.not_mem_nil, or_false] at hv
    rcases hv with rfl | rfl
    · rw [Real.log_one, abs_le]; constructor <;> linarith
    · rw [sub_self, abs_zero]; norm_num

/-! ### C96 -/

/-- **C96.** An object made from a function is the one made from the array of the function's values at the points of the grid: `nx` equally spaced points, in `x` or in `log x`. -/
theorem C96_one_dim (f : ℝ → ℝ) (xlo xhi : ℝ) (n : ℕ) (step : String) (lin : Bool) (hn : 2 ≤ n) (hr : Range xlo xhi lin)
    (hs : lin = true ∧ (step = "linear" ∨ step = "lin") ∨ lin = false ∧ (step = "log" ∨ step = "logarithmic")) :
    ∃ xs : List ℝ, xs.length = n ∧ (∀ i, i < n → xs[i]? = some (if lin then xlo + i * ((xhi - xlo) / ((n : ℝ) - 1)) else xlo * (xhi / xlo) ^ ((i : ℝ) / ((n : ℝ) - 1)))) ∧
      ∃ h, G1.init realLog f xlo xhi n step = .ok h ∧ H1.init realLog (xs.map f) xlo xhi lin = .ok h ∧ h.xvals = xs ∧ h.logpdf = xs.map f := by
  have hl : (points xlo xhi n lin).length = n := by simp [points]
  have hstep : stepFlag step = .ok lin := by
    rcases hs with ⟨rfl, rfl | rfl⟩ | ⟨rfl, rfl | rfl⟩ <;> decide
  refine ⟨points xlo xhi n lin, hl, fun i hi => by simp [points, hi], ?_⟩
  have e : H1.init realLog ((points xlo xhi n lin).map f) xlo xhi lin = G1.init realLog f xlo xhi n step := by
    unfold H1.init G1.init
    rw [hstep]
    dsimp only
    rw [List.length_map, hl, points_spec hn hr]
    dsimp only
    have h1 : (points xlo xhi n lin).map f ≠ [] := by
      intro h
      have := congrArg List.length h
      rw [List.length_map, hl] at this
      simp at this
      omega
    have h2 : ¬ (n : ℤ) = 1 := by omega
    have h3 : ¬ (n : ℤ) ≤ 0 := by omega
    rw [if_neg h1, if_neg h2, if_neg h2, if_neg h3]
  have hb := init_spec (l := (points xlo xhi n lin).map f) (by rw [List.length_map, hl]; exact hn) hr
  refine ⟨_, by rw [← e, hb], hb, ?_, rfl⟩
  simp [built, hl]

/-- **C96, two dimensions.** -/
theorem C96_two_dim (f : ℝ → ℝ → ℝ) (xlo xhi ylo yhi : ℝ) (nx ny : ℕ) (xstep ystep : String) (xlin ylin : Bool) (hnx : 2 ≤ nx) (hny : 2 ≤ ny) (hx : Range xlo xhi xlin) (hy : Range ylo yhi ylin)
    (hxs : xlin = true ∧ (xstep = "linear" ∨ xstep = "lin") ∨ xlin = false ∧ (xstep = "log" ∨ xstep = "logarithmic"))
    (hys : ylin = true ∧ (ystep = "linear" ∨ ystep = "lin") ∨ ylin = false ∧ (ystep = "log" ∨ ystep = "logarithmic")) :
    ∃ xs ys : List ℝ, xs.length = nx ∧ ys.length = ny ∧
      (∀ i, i < nx → xs[i]? = some (if xlin then xlo + i * ((xhi - xlo) / ((nx : ℝ) - 1)) else xlo * (xhi / xlo) ^ ((i : ℝ) / ((nx : ℝ) - 1)))) ∧
      (∀ i, i < ny → ys[i]? = some (if ylin then ylo + i * ((yhi - ylo) / ((ny : ℝ) - 1)) else ylo * (yhi / ylo) ^ ((i : ℝ) / ((ny : ℝ) - 1)))) ∧
      ∃ h, G2.init realLog f xlo xhi nx ylo yhi ny xstep ystep = .ok h ∧ H2.init realLog (xs.map fun x => ys.map fun y => f x y) ny xlo xhi ylo yhi xlin ylin = .ok h := by
  have hlx : (points xlo xhi nx xlin).length = nx := by simp [points]
  have hly : (points ylo yhi ny ylin).length = ny := by simp [points]
  have hsx : stepFlag xstep = .ok xlin := by rcases hxs with ⟨rfl, rfl | rfl⟩ | ⟨rfl, rfl | rfl⟩ <;> decide
  have hsy : stepFlag ystep = .ok ylin := by rcases hys with ⟨rfl, rfl | rfl⟩ | ⟨rfl, rfl | rfl⟩ <;> decide
  refine ⟨points xlo xhi nx xlin, points ylo yhi ny ylin, hlx, hly, fun i hi => by simp [points, hi], fun i hi => by simp [points, hi], ?_⟩
  set l := (points xlo xhi nx xlin).map fun x => (points ylo yhi ny ylin).map fun y => f x y with hl
  have ha : Args2 l ny xlo xhi ylo yhi xlin ylin := ⟨by simpa [hl, hlx] using hnx, hny, by
    intro r hr
    obtain ⟨x, -, rfl⟩ := List.mem_map.mp hr
    simp [hly], hx, hy⟩
  obtain ⟨h, hi, -⟩ := fracgt2_formula ha
  refine ⟨h, ?_, hi⟩
  rw [← hi]
  have hll : l.length = nx := by simp [hl, hlx]
  unfold G2.init H2.init
  rw [hsx, hsy, hll]
  dsimp only
  rw [axis_spec hnx hx]
  dsimp only
  rw [axis_spec hny hy]
  dsimp only
  have h3 : ¬ ((nx : ℤ) ≤ 0 ∨ (ny : ℤ) ≤ 0) := by omega
  rw [if_neg h3, if_neg]
  · intro hnil
    rw [List.flatten_eq_nil_iff] at hnil
    have : 0 < l.length := by omega
    have h1 := hnil _ (List.getElem_mem this)
    have h2 := ha.rows _ (List.getElem_mem this)
    rw [h1] at h2
    simp at h2
    omega

/-- **C96.** A single point with linear steps raises `ZeroDivisionError`, no points or a negative number `ValueError`, and so does another name of the steps. -/
theorem C96_errors (f : ℝ → ℝ) (xlo xhi : ℝ) (n : ℤ) (step : String) :
    ((step = "linear" ∨ step = "lin") → G1.init realLog f xlo xhi 1 step = .error .zeroDiv) ∧
      (n ≤ 0 → xlo ≠ 0 → G1.init realLog f xlo xhi n step = .error .value) ∧
      (step ≠ "linear" → step ≠ "lin" → step ≠ "log" → step ≠ "logarithmic" → G1.init realLog f xlo xhi n step = .error .value) := by
  refine ⟨?_, ?_, ?_⟩
  · rintro (rfl | rfl) <;> simp [G1.init, stepFlag, linStepper]
  · intro hn h0
    unfold G1.init stepFlag
    split_ifs <;> simp_all [linStepper, logStepper] <;> omega
  · intro h1 h2 h3 h4
    simp [G1.init, stepFlag, h1, h2, h3, h4]

/-- A grid that meets the hypotheses: five points from 1 to 16 in logarithmic steps. -/
example : (2 : ℕ) ≤ 5 ∧ Range 1 16 false ∧ (false = true ∧ ("log" = "linear" ∨ "log" = "lin") ∨ false = false ∧ ("log" = "log" ∨ "log" = "logarithmic")) :=
  ⟨by norm_num, ⟨by norm_num, by norm_num⟩, by simp⟩

end Verif.HPD
