import Verif.Gauss.BA
import Verif.Gauss.VbaProps
import Mathlib.Algebra.BigOperators.Field

/-!
# The Bretthorst algorithm: C68, and C66 for the class
-/

set_option linter.unusedSectionVars false
set_option linter.unusedSimpArgs false

namespace Verif.Vba

open Finset Matrix

variable {Aux : Type}

/-! ## Specification -/

/-- The values of the basis functions for parameters `p`, evaluated in order after the setup function; the first one that raises decides. -/
inductive Model (pr : Prob Aux) (p : List ℝ) : Except Err (ℕ → Arr1) → Prop
  | setup (f : List ℝ → Except Err Aux) (e : Err) : pr.setup = some f → f p = .error e → Model pr p (.error e)
  | basis (aux : Option Aux) (a : ℕ) (e : Err) : pr.setup.elim (Except.ok none) (fun f => (f p).map some) = .ok aux → a < pr.M →
      (∀ b < a, ∃ g, pr.basis b p aux = .ok g) → pr.basis a p aux = .error e → Model pr p (.error e)
  | ok (aux : Option Aux) (g : ℕ → Arr1) : pr.setup.elim (Except.ok none) (fun f => (f p).map some) = .ok aux →
      (∀ a < pr.M, pr.basis a p aux = .ok (g a)) → Model pr p (.ok g)

/-- The weighted sum of squared residuals of the model with basis values `g` and amplitudes `B`. -/
noncomputable def chi2 (pr : Prob Aux) (g : ℕ → Arr1) (B : Fin pr.M → ℝ) : ℝ := ∑ k : Fin pr.N, ((pr.smpls k - ∑ a : Fin pr.M, B a * g a k) / pr.sigs k) ^ 2

/-- The standardised design matrix. -/
noncomputable def design (pr : Prob Aux) (g : ℕ → Arr1) : Matrix (Fin pr.M) (Fin pr.N) ℝ := fun a k => g a k / pr.sigs k

/-- `A` are the best amplitudes: all others give a larger sum of squares. -/
def Best (pr : Prob Aux) (g : ℕ → Arr1) (A : Fin pr.M → ℝ) : Prop := ∀ B, B ≠ A → chi2 pr g A < chi2 pr g B

/-- What a call may change. -/
inductive Op
  | marg (junk : Arr1) (p : List ℝ)
  | ampl (junk : Arr1) (p : List ℝ)
  | resid (junk : Arr1) (p : List ℝ)

noncomputable def Op.run (pr : Prob Aux) (s : BA) : Op → BA
  | .marg j p => (s.margStats pr j p).1
  | .ampl j p => (s.amplitudes pr j p).1
  | .resid j p => (s.residuals pr j p).1

/-- Whether a call returns. -/
noncomputable def Op.okay (pr : Prob Aux) (s : BA) : Op → Bool
  | .marg j p => (s.margStats pr j p).2.isOk
  | .ampl j p => (s.amplitudes pr j p).2.isOk
  | .resid j p => (s.residuals pr j p).2.isOk

/-- The parameters of a call, if it was given any (`marg_stats` always uses them). -/
def Op.pars : Op → Option (List ℝ)
  | .marg _ p => some p
  | .ampl _ p => if p = [] then none else some p
  | .resid _ p => if p = [] then none else some p

/-- The states that calls lead to.  `last` are the parameters of the last call with parameters that returned.  `clean` says that no call raised since parameters other than those before
were last analysed. -/
inductive BReach (pr : Prob Aux) : Option (List ℝ) → Bool → BA → Prop
  | new : BReach pr none true BA.new
  | same (last : Option (List ℝ)) (clean : Bool) (s : BA) (op : Op) : BReach pr last clean s → op.okay pr s = true → (op.pars = none ∨ op.pars = last) →
      BReach pr last clean (op.run pr s)
  | other (last : Option (List ℝ)) (clean : Bool) (s : BA) (op : Op) (p : List ℝ) : BReach pr last clean s → op.okay pr s = true → op.pars = some p → last ≠ some p →
      BReach pr (some p) true (op.run pr s)
  | raised (last : Option (List ℝ)) (clean : Bool) (s : BA) (op : Op) : BReach pr last clean s → op.okay pr s = false → BReach pr last false (op.run pr s)

/-! ## Lemmas -/

theorem rows_spec (pr : Prob Aux) (p : List ℝ) (aux : Option Aux) : ∀ (r a : ℕ) (D : Arr2), a + r = pr.M → (∀ b < a, ∃ g, pr.basis b p aux = .ok g) →
    (∀ b < a, ∀ g, pr.basis b p aux = .ok g → ∀ j, D b j = g j / pr.sigs j) →
    (∀ D', rows pr p aux r a D = (D', none) → ∃ g : ℕ → Arr1, (∀ b < pr.M, pr.basis b p aux = .ok (g b)) ∧ ∀ b < pr.M, ∀ j, D' b j = g b j / pr.sigs j) ∧
    (∀ D' e, rows pr p aux r a D = (D', some e) → ∃ b < pr.M, (∀ c < b, ∃ g, pr.basis c p aux = .ok g) ∧ pr.basis b p aux = .error e) := by
  intro r
  induction r with
  | zero =>
    intro a D ha hg hD
    refine ⟨?_, ?_⟩
    · intro D' h
      simp only [rows, Prod.mk.injEq, and_true] at h
      subst h
      have ha' : a = pr.M := by omega
      subst ha'
      classical
      refine ⟨fun b => if h : b < pr.M then (hg b h).choose else fun _ => 0, ?_, ?_⟩
      · intro b hb
        simp only [hb, dif_pos]
        exact (hg b hb).choose_spec
      · intro b hb j
        simp only [hb, dif_pos]
        exact hD b hb _ (hg b hb).choose_spec j
    · intro D' e h
      simp only [rows, Prod.mk.injEq, reduceCtorEq, and_false] at h
  | succ r ih =>
    intro a D ha hg hD
    rw [rows]
    cases hb : pr.basis a p aux with
    | error e0 =>
      refine ⟨?_, ?_⟩
      · intro D' h; simp at h
      · intro D' e h
        simp only [Prod.mk.injEq, Option.some.injEq] at h
        obtain ⟨-, rfl⟩ := h
        exact ⟨a, by omega, hg, hb⟩
    | ok g =>
      apply ih (a + 1) _ (by omega)
      · intro b hb'
        rcases Nat.lt_succ_iff_lt_or_eq.1 hb' with h | h
        · exact hg b h
        · subst h; exact ⟨g, hb⟩
      · intro b hb' g' hg' j
        rcases Nat.lt_succ_iff_lt_or_eq.1 hb' with h | h
        · rw [if_neg (by omega)]; exact hD b h g' hg' j
        · subst h
          rw [hb] at hg'
          simp only [Except.ok.injEq] at hg'
          subst hg'
          rw [if_pos rfl]

/-- The analysis of parameters `p` was done and its results are `r`. -/
def Done (pr : Prob Aux) (p : List ℝ) (r : Stats) (g : ℕ → Arr1) : Prop :=
  Model pr p (.ok g) ∧ ∃ D junk, metricAnalysis junk pr.M pr.N pr.N D pr.std = .ok r ∧ ∀ b < pr.M, ∀ j, D b j = g b j / pr.sigs j

/-- What holds of every state that is reached. -/
structure BInv (pr : Prob Aux) (last : Option (List ℝ)) (clean : Bool) (s : BA) : Prop where
  hl : s.pars = last
  hn : last = none → s.res = none
  hs : ∀ p, last = some p → ∃ r g, s.res = some r ∧ Done pr p r g ∧ s.suf = some r.S ∧ s.Q = some (pr.dsqr - r.S) ∧ s.Jac = some (1 / r.rdet) ∧
    (clean = true → ∀ b < pr.M, ∀ j, s.modvals b j = g b j / pr.sigs j)

theorem setup_err {pr : Prob Aux} {p : List ℝ} {e : Err} (h : pr.setup.elim (Except.ok none) (fun f => (f p).map some) = .error e) :
    ∃ f, pr.setup = some f ∧ f p = .error e := by
  cases hs : pr.setup with
  | none => rw [hs] at h; cases h
  | some f =>
    rw [hs] at h
    simp only [Option.elim_some] at h
    refine ⟨f, rfl, ?_⟩
    cases hf : f p with
    | error e' => rw [hf] at h; simpa [Except.map] using h
    | ok x => rw [hf] at h; cases h

/-- What `calc` does to a state. -/
theorem calc_cases (pr : Prob Aux) (junk : Arr1) {last : Option (List ℝ)} {clean : Bool} {s : BA} (h : BInv pr last clean s) (p : List ℝ) :
    (last = some p ∧ s.calc pr junk p = (s, none)) ∨
    (last ≠ some p ∧ ∃ s', s.calc pr junk p = (s', none) ∧ BInv pr (some p) true s') ∨
    (last ≠ some p ∧ ∃ s' e, s.calc pr junk p = (s', some e) ∧ BInv pr last false s' ∧
      (Model pr p (.error e) ∨ (e = .value ∧ ∃ g, Model pr p (.ok g) ∧ ¬ LinearIndependent ℝ fun a => design pr g a))) := by
  unfold BA.calc
  rw [h.hl]
  by_cases hl : some p = last
  · left; rw [if_pos hl]; exact ⟨hl.symm, rfl⟩
  right
  have hl' : last ≠ some p := fun h => hl h.symm
  rw [if_neg hl]
  have hkeep : ∀ D, BInv pr last false { s with modvals := D } := by
    intro D
    refine ⟨h.hl, h.hn, ?_⟩
    intro p' hp'
    obtain ⟨r, g, a, b, c, d, e, -⟩ := h.hs p' hp'
    exact ⟨r, g, a, b, c, d, e, by simp⟩
  have hkeep' : BInv pr last false s := by
    have := hkeep s.modvals
    exact this
  have hkeep : ∀ D, BInv pr last false { s with pars := last, modvals := D } := by
    intro D
    have := hkeep D
    rw [h.hl] at this; exact this
  cases hset : pr.setup.elim (Except.ok none) (fun f => (f p).map some) with
  | error e =>
    obtain ⟨f, hf, hfe⟩ := setup_err hset
    right
    exact ⟨hl', s, e, rfl, hkeep', Or.inl (.setup f e hf hfe)⟩
  | ok aux =>
    obtain ⟨hr1, hr2⟩ := rows_spec pr p aux pr.M 0 s.modvals (by omega) (by intro b hb; omega) (by intro b hb; omega)
    dsimp only
    cases hrows : rows pr p aux pr.M 0 s.modvals with
    | mk D oe =>
      cases oe with
      | some e =>
        obtain ⟨b, hb, hc, he⟩ := hr2 D e hrows
        right
        exact ⟨hl', _, e, rfl, hkeep D, Or.inl (.basis aux b e hset hb hc he)⟩
      | none =>
        obtain ⟨g, hg, hD⟩ := hr1 D hrows
        have hmod : Model pr p (.ok g) := .ok aux g hset hg
        dsimp only
        cases hm : metricAnalysis junk pr.M pr.N pr.N D pr.std with
        | error e =>
          have hdeg := C65_degenerate junk pr.M pr.N D pr.std
          have hv := hdeg.2.1 ⟨e, hm⟩
          have he : e = .value := by rw [hm] at hv; simpa using hv
          have hdep := hdeg.1.1 hv
          right
          refine ⟨hl', _, e, rfl, hkeep D, Or.inr ⟨he, g, hmod, ?_⟩⟩
          have : (fun a => mat pr.M pr.N D a) = fun a => design pr g a := by
            funext a k
            simp only [mat, design]
            exact hD a a.2 k
          rw [← this]; exact hdep
        | ok r =>
          left
          refine ⟨hl', _, rfl, rfl, by simp, ?_⟩
          intro p' hp'
          simp only [Option.some.injEq] at hp'
          subst hp'
          exact ⟨r, g, rfl, ⟨hmod, D, junk, hm, hD⟩, rfl, rfl, rfl, fun _ => hD⟩

theorem isOk_ok {α β : Type} (x : β) : (Except.ok x : Except α β).isOk = true := rfl
theorem isOk_err {α β : Type} (x : α) : (Except.error x : Except α β).isOk = false := rfl

theorem BReach.inv {pr : Prob Aux} {last : Option (List ℝ)} {clean : Bool} {s : BA} (h : BReach pr last clean s) : BInv pr last clean s := by
  have weaken : ∀ {last clean s}, BInv pr last clean s → BInv pr last false s := by
    intro last clean s h
    refine ⟨h.hl, h.hn, fun p hp => ?_⟩
    obtain ⟨r, g, a, b, c, d, e, -⟩ := h.hs p hp
    exact ⟨r, g, a, b, c, d, e, by simp⟩
  induction h with
  | new => exact ⟨rfl, fun _ => rfl, fun p h => by cases h⟩
  | same last clean s op _ hok hp ih =>
    -- a call without parameters, or with those of the last analysis, changes nothing
    have hsame : op.run pr s = s := by
      cases op with
      | marg j p =>
        rcases hp with hp | hp
        · cases hp
        · rcases calc_cases pr j ih p with ⟨-, h⟩ | ⟨h, -⟩ | ⟨h, -⟩
          · simp [Op.run, BA.margStats, h]
          · exact absurd hp.symm h
          · exact absurd hp.symm h
      | ampl j p =>
        have : BA.ensure pr j s p = (s, none) := by
          unfold BA.ensure
          rw [if_neg]
          rintro ⟨h1, h2⟩
          simp only [Op.pars, if_neg h1] at hp
          rcases hp with hp | hp
          · cases hp
          · rw [ih.hl] at h2; exact h2 hp
        simp [Op.run, BA.amplitudes, this]
      | resid j p =>
        have : BA.ensure pr j s p = (s, none) := by
          unfold BA.ensure
          rw [if_neg]
          rintro ⟨h1, h2⟩
          simp only [Op.pars, if_neg h1] at hp
          rcases hp with hp | hp
          · cases hp
          · rw [ih.hl] at h2; exact h2 hp
        simp [Op.run, BA.residuals, this]
    rw [hsame]; exact ih
  | other last clean s op p _ hok hp hne ih =>
    cases op with
    | marg j q =>
      simp only [Op.pars, Option.some.injEq] at hp
      subst hp
      rcases calc_cases pr j ih q with ⟨h, -⟩ | ⟨-, s', h, hi⟩ | ⟨-, s', e, h, -⟩
      · exact absurd h hne
      · simpa [Op.run, BA.margStats, h] using hi
      · simp [Op.okay, BA.margStats, h, isOk_err] at hok
    | ampl j q =>
      by_cases hq : q = []
      · simp [Op.pars, hq] at hp
      simp only [Op.pars, if_neg hq, Option.some.injEq] at hp
      subst hp
      have hens : BA.ensure pr j s q = s.calc pr j q := by
        unfold BA.ensure
        rw [if_pos ⟨hq, by rw [ih.hl]; exact fun h => hne h.symm⟩]
      rcases calc_cases pr j ih q with ⟨h, -⟩ | ⟨-, s', h, hi⟩ | ⟨-, s', e, h, -⟩
      · exact absurd h hne
      · simpa [Op.run, BA.amplitudes, hens, h] using hi
      · simp [Op.okay, BA.amplitudes, hens, h, isOk_err] at hok
    | resid j q =>
      by_cases hq : q = []
      · simp [Op.pars, hq] at hp
      simp only [Op.pars, if_neg hq, Option.some.injEq] at hp
      subst hp
      have hens : BA.ensure pr j s q = s.calc pr j q := by
        unfold BA.ensure
        rw [if_pos ⟨hq, by rw [ih.hl]; exact fun h => hne h.symm⟩]
      rcases calc_cases pr j ih q with ⟨h, -⟩ | ⟨-, s', h, hi⟩ | ⟨-, s', e, h, -⟩
      · exact absurd h hne
      · simpa [Op.run, BA.residuals, hens, h] using hi
      · simp [Op.okay, BA.residuals, hens, h, isOk_err] at hok
  | raised last clean s op _ hok ih =>
    -- a call that raises leaves the results, but not the design matrix
    have hcalc : ∀ j p s' e, s.calc pr j p = (s', some e) → BInv pr last false s' := by
      intro j p s' e he
      rcases calc_cases pr j ih p with ⟨-, h⟩ | ⟨-, s1, h, -⟩ | ⟨-, s1, e1, h, hi, -⟩
      · rw [h] at he; cases he
      · rw [h] at he; cases he
      · rw [h] at he
        simp only [Prod.mk.injEq] at he
        rw [← he.1]; exact hi
    have hens : ∀ j p s' e, s.ensure pr j p = (s', some e) → BInv pr last false s' := by
      intro j p s' e he
      unfold BA.ensure at he
      split_ifs at he with hc
      · exact hcalc j p s' e he
      · cases he
    have hens0 : ∀ j p s', s.ensure pr j p = (s', none) → s'.res = none → s' = s := by
      intro j p s' he hres
      unfold BA.ensure at he
      split_ifs at he with hc
      · rcases calc_cases pr j ih p with ⟨-, h⟩ | ⟨-, s1, h, hi⟩ | ⟨-, s1, e1, h, -⟩
        · rw [h] at he; simp only [Prod.mk.injEq] at he; exact he.1.symm
        · rw [h] at he
          simp only [Prod.mk.injEq] at he
          obtain ⟨r, g, hr, -⟩ := hi.hs p rfl
          rw [he.1, hres] at hr; cases hr
        · rw [h] at he; cases he
      · simp only [Prod.mk.injEq] at he; exact he.1.symm
    cases op with
    | marg j p =>
      cases hc : s.calc pr j p with
      | mk s' oe =>
        cases oe with
        | none => simp [Op.okay, BA.margStats, hc, isOk_ok] at hok
        | some e => simpa [Op.run, BA.margStats, hc] using hcalc j p s' e hc
    | ampl j p =>
      cases hc : s.ensure pr j p with
      | mk s' oe =>
        cases oe with
        | none =>
          cases hres : s'.res with
          | some r => simp [Op.okay, BA.amplitudes, hc, hres, isOk_ok] at hok
          | none =>
            have := hens0 j p s' hc hres
            simp only [Op.run, BA.amplitudes, hc]
            rw [this]; exact weaken ih
        | some e => simpa [Op.run, BA.amplitudes, hc] using hens j p s' e hc
    | resid j p =>
      cases hc : s.ensure pr j p with
      | mk s' oe =>
        cases oe with
        | none =>
          cases hres : s'.res with
          | some r => simp [Op.okay, BA.residuals, hc, hres, isOk_ok] at hok
          | none =>
            have := hens0 j p s' hc hres
            simp only [Op.run, BA.residuals, hc]
            rw [this]; exact weaken ih
        | some e => simpa [Op.run, BA.residuals, hc] using hens j p s' e hc

theorem chisq_chi2 {pr : Prob Aux} {D : Arr2} {g : ℕ → Arr1} (hD : ∀ b < pr.M, ∀ j, D b j = g b j / pr.sigs j) (B : Fin pr.M → ℝ) :
    chisq pr.M pr.N D pr.std B = chi2 pr g B := by
  unfold chisq chi2
  refine sum_congr rfl fun k _ => ?_
  congr 1
  have : ∑ a : Fin pr.M, B a * D a k = (∑ a : Fin pr.M, B a * g a k) / pr.sigs k := by
    rw [sum_div]
    refine sum_congr rfl fun a _ => ?_
    rw [hD a a.2 k]; ring
  rw [this, Prob.std]; ring

theorem dsqr_eq (pr : Prob Aux) : pr.dsqr = ∑ k : Fin pr.N, pr.std k * pr.std k := by
  unfold Prob.dsqr
  rw [forUp_add 0 _ (Nat.zero_le _), zero_add, ← Finset.range_eq_Ico, Finset.sum_range]

theorem done_spec {pr : Prob Aux} {p : List ℝ} {r : Stats} {g : ℕ → Arr1} (h : Done pr p r g) :
    Best pr g (vec pr.M r.A) ∧ pr.dsqr - r.S = chi2 pr g (vec pr.M r.A) ∧ 0 < 1 / r.rdet ∧ (1 / r.rdet) ^ 2 * (design pr g * (design pr g)ᵀ).det = 1 ∧
    mat pr.M pr.M (covar pr.M r.L) = (design pr g * (design pr g)ᵀ)⁻¹ := by
  obtain ⟨-, D, junk, hm, hD⟩ := h
  obtain ⟨h1, h2⟩ := C66_minimum hm
  obtain ⟨k1, -, -, -, -, -, k7, k8, -⟩ := C64_analysis hm
  have hmat : mat pr.M pr.N D = design pr g := by
    ext a k
    simp only [mat, design]
    exact hD a a.2 k
  rw [hmat] at k1
  refine ⟨?_, ?_, by positivity, ?_, ?_⟩
  · intro B hB
    rw [← chisq_chi2 hD, ← chisq_chi2 hD]
    exact h2 B hB
  · rw [← chisq_chi2 hD, ← h1, dsqr_eq]
  · rw [← k1, ← k8]
    field_simp
  · rw [← k1]; exact (C67_metric hm).1

/-! ## Theorems -/

/-- **C68, C66** (statistics).  After any calls, including ones that raised, `marg_stats(p)` either returns the smallest sum of squared standardised residuals over all amplitudes, the sum of
squares of the data less this, and the reciprocal of the root of the determinant of the metric, all for `p`; or it raises what evaluating the model at `p` raises; or a ValueError, and the basis
functions at `p` are linearly dependent. -/
theorem C68_stats {pr : Prob Aux} {last : Option (List ℝ)} {clean : Bool} {s : BA} (h : BReach pr last clean s) (junk : Arr1) (p : List ℝ) :
    (∃ g A J, Model pr p (.ok g) ∧ Best pr g A ∧ 0 < J ∧ J ^ 2 * (design pr g * (design pr g)ᵀ).det = 1 ∧
      (s.margStats pr junk p).2 = .ok (some (chi2 pr g A), some ((∑ k : Fin pr.N, (pr.smpls k / pr.sigs k) ^ 2) - chi2 pr g A), some J)) ∨
    (∃ e, Model pr p (.error e) ∧ (s.margStats pr junk p).2 = .error e) ∨
    (∃ g, Model pr p (.ok g) ∧ ¬ LinearIndependent ℝ (fun a => design pr g a) ∧ (s.margStats pr junk p).2 = .error .value) := by
  have key : ∀ clean s', BInv pr (some p) clean s' → ∃ g A J, Model pr p (.ok g) ∧ Best pr g A ∧ 0 < J ∧ J ^ 2 * (design pr g * (design pr g)ᵀ).det = 1 ∧
      (s'.Q, s'.suf, s'.Jac) = (some (chi2 pr g A), some ((∑ k : Fin pr.N, (pr.smpls k / pr.sigs k) ^ 2) - chi2 pr g A), some J) := by
    intro clean s' hi
    obtain ⟨r, g, hr, hd, hsuf, hQ, hJ, -⟩ := hi.hs p rfl
    obtain ⟨a, b, c, d, -⟩ := done_spec hd
    refine ⟨g, vec pr.M r.A, 1 / r.rdet, hd.1, a, c, d, ?_⟩
    rw [hQ, hsuf, hJ, b]
    have hds : ∑ k : Fin pr.N, (pr.smpls k / pr.sigs k) ^ 2 = pr.dsqr := by
      rw [dsqr_eq]; exact sum_congr rfl fun k _ => by rw [Prob.std, sq]
    rw [hds, ← b]
    simp
  rcases calc_cases pr junk h.inv p with ⟨hl, hc⟩ | ⟨hl, s', hc, hi⟩ | ⟨hl, s', e, hc, hi, hor⟩
  · left
    subst hl
    obtain ⟨g, A, J, a, b, c, d, e⟩ := key clean s h.inv
    exact ⟨g, A, J, a, b, c, d, by simp only [BA.margStats, hc]; rw [e]⟩
  · left
    obtain ⟨g, A, J, a, b, c, d, e⟩ := key true s' hi
    exact ⟨g, A, J, a, b, c, d, by simp only [BA.margStats, hc]; rw [e]⟩
  · right
    rcases hor with hm | ⟨rfl, g, hm, hd⟩
    · left; exact ⟨e, hm, by simp [BA.margStats, hc]⟩
    · right; exact ⟨g, hm, hd, by simp [BA.margStats, hc]⟩

/-- **C68, C66** (amplitudes).  After any calls, `amplitudes(p)` either returns the amplitudes with the smallest sum of squared residuals at `p`, or raises as `marg_stats` does.  Without
parameters it returns those of the last call that returned, and raises an AttributeError if there is none. -/
theorem C68_amplitudes {pr : Prob Aux} {last : Option (List ℝ)} {clean : Bool} {s : BA} (h : BReach pr last clean s) (junk : Arr1) (p : List ℝ) :
    (∃ q g A, (q = p ∨ (p = [] ∧ last = some q)) ∧ Model pr q (.ok g) ∧ Best pr g (vec pr.M A) ∧ (s.amplitudes pr junk p).2 = .ok A) ∨
    (p ≠ [] ∧ ∃ e, Model pr p (.error e) ∧ (s.amplitudes pr junk p).2 = .error e) ∨
    (p ≠ [] ∧ ∃ g, Model pr p (.ok g) ∧ ¬ LinearIndependent ℝ (fun a => design pr g a) ∧ (s.amplitudes pr junk p).2 = .error .value) ∨
    (p = [] ∧ last = none ∧ (s.amplitudes pr junk p).2 = .error .attribute) := by
  have hinv := h.inv
  by_cases hc : p ≠ [] ∧ some p ≠ s.pars
  · have hens : s.ensure pr junk p = s.calc pr junk p := by unfold BA.ensure; rw [if_pos hc]
    rcases calc_cases pr junk hinv p with ⟨hl, -⟩ | ⟨hl, s', hcalc, hi⟩ | ⟨hl, s', e, hcalc, hi, hor⟩
    · exact absurd hl.symm (by rw [← hinv.hl]; exact hc.2)
    · left
      obtain ⟨r, g, hr, hd, -⟩ := hi.hs p rfl
      exact ⟨p, g, r.A, Or.inl rfl, hd.1, (done_spec hd).1, by simp [BA.amplitudes, hens, hcalc, hr]⟩
    · right
      rcases hor with hm | ⟨rfl, g, hm, hd⟩
      · left; exact ⟨hc.1, e, hm, by simp [BA.amplitudes, hens, hcalc]⟩
      · right; left; exact ⟨hc.1, g, hm, hd, by simp [BA.amplitudes, hens, hcalc]⟩
  · have hens : s.ensure pr junk p = (s, none) := by unfold BA.ensure; rw [if_neg hc]
    cases hl : last with
    | none =>
      have hp : p = [] := by
        by_contra hne
        exact hc ⟨hne, by rw [hinv.hl, hl]; simp⟩
      right; right; right
      exact ⟨hp, rfl, by simp [BA.amplitudes, hens, hinv.hn hl]⟩
    | some q =>
      obtain ⟨r, g, hr, hd, -⟩ := hinv.hs q hl
      left
      refine ⟨q, g, r.A, ?_, hd.1, (done_spec hd).1, by simp [BA.amplitudes, hens, hr]⟩
      by_cases hp : p = []
      · exact Or.inr ⟨hp, rfl⟩
      · left
        by_contra hne
        exact hc ⟨hp, by rw [hinv.hl, hl]; simpa using fun h => hne h.symm⟩

/-- **C68** (covariance).  After any calls, `covar()` is the inverse of the metric at the parameters of the last call that returned, and raises a ValueError if there is none. -/
theorem C68_covar {pr : Prob Aux} {last : Option (List ℝ)} {clean : Bool} {s : BA} (h : BReach pr last clean s) :
    (last = none → s.covar pr = .error .value) ∧
    (∀ q, last = some q → ∃ g C, Model pr q (.ok g) ∧ s.covar pr = .ok C ∧ mat pr.M pr.M C = (design pr g * (design pr g)ᵀ)⁻¹) := by
  have hinv := h.inv
  refine ⟨fun hl => ?_, fun q hl => ?_⟩
  · unfold BA.covar; rw [hinv.hl, hl]
  · obtain ⟨r, g, hr, hd, -⟩ := hinv.hs q hl
    refine ⟨g, Vba.covar pr.M r.L, hd.1, ?_, (done_spec hd).2.2.2.2⟩
    unfold BA.covar; rw [hinv.hl, hl]
    simp [hr]

/-- **C68** (residuals, part).  If no call raised since parameters were last analysed, or if `p` are not the parameters of the last call that returned, a result of `residuals(p)` is the
vector of standardised residuals of the model at `p` with the best amplitudes.
Missing: earlier parameters after a call that raised (`C68_violated`). -/
theorem C68_residuals_partial {pr : Prob Aux} {last : Option (List ℝ)} {clean : Bool} {s : BA} (h : BReach pr last clean s) (junk : Arr1) (p : List ℝ)
    (hc : clean = true ∨ (p ≠ [] ∧ last ≠ some p)) {R : Arr1} (hR : (s.residuals pr junk p).2 = .ok R) :
    ∃ q g A, (q = p ∨ (p = [] ∧ last = some q)) ∧ Model pr q (.ok g) ∧ Best pr g A ∧
      ∀ k : Fin pr.N, R k = (pr.smpls k - ∑ a : Fin pr.M, A a * g a k) / pr.sigs k := by
  have hinv := h.inv
  have key : ∀ q s', BInv pr (some q) true s' → ∃ r g, s'.res = some r ∧ Model pr q (.ok g) ∧ Best pr g (vec pr.M r.A) ∧
      ∀ k : Fin pr.N, pr.std k - forUp 0 pr.M (fun a sum => sum + r.A a * s'.modvals a k) 0 = (pr.smpls k - ∑ a : Fin pr.M, vec pr.M r.A a * g a k) / pr.sigs k := by
    intro q s' hi
    obtain ⟨r, g, hr, hd, -, -, -, hmod⟩ := hi.hs q rfl
    refine ⟨r, g, hr, hd.1, (done_spec hd).1, fun k => ?_⟩
    rw [forUp_add 0 _ (Nat.zero_le _), zero_add, ← Finset.range_eq_Ico, Prob.std, sub_div]
    congr 1
    rw [Finset.sum_range, sum_div]
    refine sum_congr rfl fun a _ => ?_
    rw [hmod rfl a a.2 k]
    simp only [vec]; ring
  by_cases hcc : p ≠ [] ∧ some p ≠ s.pars
  · have hens : s.ensure pr junk p = s.calc pr junk p := by unfold BA.ensure; rw [if_pos hcc]
    rcases calc_cases pr junk hinv p with ⟨hl, -⟩ | ⟨hl, s', hcalc, hi⟩ | ⟨hl, s', e, hcalc, hi, hor⟩
    · exact absurd hl.symm (by rw [← hinv.hl]; exact hcc.2)
    · obtain ⟨r, g, hr, hm, hb, hk⟩ := key p s' hi
      simp only [BA.residuals, hens, hcalc, hr, Except.ok.injEq] at hR
      subst hR
      exact ⟨p, g, vec pr.M r.A, Or.inl rfl, hm, hb, hk⟩
    · simp [BA.residuals, hens, hcalc] at hR
  · have hens : s.ensure pr junk p = (s, none) := by unfold BA.ensure; rw [if_neg hcc]
    have hclean : clean = true := by
      rcases hc with hc | ⟨h1, h2⟩
      · exact hc
      · exact absurd ⟨h1, by rw [hinv.hl]; exact fun h => h2 h.symm⟩ hcc
    cases hl : last with
    | none =>
      simp [BA.residuals, hens, hinv.hn hl] at hR
    | some q =>
      rw [hl, hclean] at hinv
      obtain ⟨r, g, hr, hm, hb, hk⟩ := key q s hinv
      simp only [BA.residuals, hens, hr, Except.ok.injEq] at hR
      subst hR
      refine ⟨q, g, vec pr.M r.A, ?_, hm, hb, hk⟩
      by_cases hp : p = []
      · exact Or.inr ⟨hp, rfl⟩
      · left
        by_contra hne
        exact hcc ⟨hp, by rw [hinv.hl]; simpa using fun h => hne h.symm⟩

/-! ## The violation -/

/-- One basis function that is constant, with the parameter as its value; one sample, of one, with sigma one. -/
noncomputable def one : Prob Unit := ⟨1, 1, none, fun _ p _ => .ok fun _ => p.headD 0, fun _ => 1, fun _ => 1⟩

theorem one_model (p : List ℝ) : Model one p (.ok fun _ _ => p.headD 0) := .ok none _ rfl (fun _ _ => rfl)

theorem one_ok (junk : Arr1) : ∃ s, BA.new.calc one junk [1] = (s, none) ∧ BInv one (some [1]) true s := by
  rcases calc_cases one junk (BReach.new (pr := one)).inv [1] with ⟨h, -⟩ | ⟨-, s, h, hi⟩ | ⟨-, s, e, h, -, hor⟩
  · cases h
  · exact ⟨s, h, hi⟩
  · exfalso
    have mod_ok : ∀ x, Model one [1] x → x = .ok (fun a k => 1) ∨ ∃ g, x = .ok g ∧ ∀ k, g 0 k = 1 := by
      intro x hx
      cases hx with
      | setup f e h1 h2 => cases h1
      | basis aux a e h1 h2 h3 h4 => cases h4
      | ok aux g h1 h2 =>
        right
        refine ⟨g, rfl, fun k => ?_⟩
        have := h2 0 (by simp [one])
        simp only [one, List.headD_cons, Except.ok.injEq] at this
        rw [← this]
    rcases hor with hm | ⟨-, g, hm, hd⟩
    · rcases mod_ok _ hm with h | ⟨g, h, -⟩ <;> cases h
    · rcases mod_ok _ hm with h' | ⟨g', h', hg⟩
      · simp only [Except.ok.injEq] at h'
        subst h'
        apply hd
        rw [Fintype.linearIndependent_iff]
        intro c hc i
        have := congrFun hc (⟨0, by simp [one]⟩ : Fin one.N)
        have hi : i = ⟨0, by simp [one]⟩ := Fin.ext (by have := i.2; simp [one] at this; omega)
        subst hi
        change (∑ i : Fin 1, c i • design one (fun _ _ => 1) i) (⟨0, by simp [one]⟩ : Fin one.N) = 0 at this
        rw [Fin.sum_univ_one] at this
        change c ⟨0, by simp [one]⟩ * ((1 : ℝ) / 1) = 0 at this
        simpa using this
      · simp only [Except.ok.injEq] at h'
        subst h'
        apply hd
        rw [Fintype.linearIndependent_iff]
        intro c hc i
        have := congrFun hc (⟨0, by simp [one]⟩ : Fin one.N)
        have hi : i = ⟨0, by simp [one]⟩ := Fin.ext (by have := i.2; simp [one] at this; omega)
        subst hi
        change (∑ i : Fin 1, c i • design one g i) (⟨0, by simp [one]⟩ : Fin one.N) = 0 at this
        rw [Fin.sum_univ_one] at this
        change c ⟨0, by simp [one]⟩ * (g 0 0 / 1) = 0 at this
        simpa [hg] using this

/-- **C68 is violated by the residuals**: with this model, after `marg_stats(1)` returned and `marg_stats(0)` raised (the basis function vanishes), `residuals(1)` returns a residual of one,
although the model with the best amplitude passes through the sample: the residual is zero for a new object. -/
theorem C68_violated (j1 j2 j3 j4 : Arr1) :
    let s1 := (BA.new.margStats one j1 [1]).1
    let s2 := (s1.margStats one j2 [0]).1
    (s1.margStats one j2 [0]).2 = .error .value ∧ BReach one (some [1]) false s2 ∧
    (∃ R, (s2.residuals one j3 [1]).2 = .ok R ∧ R 0 = 1) ∧ (∃ R, (BA.new.residuals one j4 [1]).2 = .ok R ∧ R 0 = 0) := by
  intro s1 s2
  have hval : ∀ (s : BA) (r : Stats) (g : ℕ → Arr1), Done one [1] r g → r.A 0 = 1 := by
    intro s r g hd
    have hg : ∀ k, g 0 k = 1 := by
      intro k
      cases hd.1 with
      | ok aux g h1 h2 =>
        have := h2 0 (by simp [one])
        simp only [one, List.headD_cons, Except.ok.injEq] at this
        rw [← this]
    obtain ⟨hb, -⟩ := done_spec hd
    by_contra hne
    have := hb (fun _ => 1) (fun h => hne (by have := congrFun h (⟨0, by simp [one]⟩ : Fin one.M); exact this.symm))
    have h1 : chi2 one g (fun _ => 1) = 0 := by
      change ∑ k : Fin 1, ((1 - ∑ a : Fin 1, 1 * g a k) / 1) ^ 2 = 0
      rw [Fin.sum_univ_one, Fin.sum_univ_one]
      simp [hg]
    rw [h1] at this
    have : 0 ≤ chi2 one g (vec one.M r.A) := sum_nonneg fun _ _ => sq_nonneg _
    linarith
  obtain ⟨t1, e1, i1⟩ := one_ok j1
  have hs1 : s1 = t1 := by simp only [s1, BA.margStats, e1]
  obtain ⟨r, g, hr, hd, -, -, -, -⟩ := i1.hs [1] rfl
  -- the second call
  have hcalc2 : ∃ D, t1.calc one j2 [0] = ({ t1 with modvals := D }, some .value) ∧ D 0 0 = 0 := by
    unfold BA.calc
    rw [i1.hl, if_neg (by simp)]
    have hrows : rows one [0] none one.M 0 t1.modvals = (fun i j => if i = 0 then 0 / 1 else t1.modvals i j, none) := by
      simp [one, rows]
    have hset : one.setup.elim (Except.ok none) (fun f => (f [0]).map some) = .ok (none : Option Unit) := rfl
    rw [hset]
    dsimp only
    rw [hrows]
    dsimp only
    have hdeg := (C65_degenerate j2 one.M one.N (fun i j => if i = 0 then 0 / 1 else t1.modvals i j) one.std).1.2 (by
      rw [Fintype.linearIndependent_iff]
      intro hc
      have := hc (fun _ => 1) (by
        ext k
        simp only [Finset.sum_apply, Pi.smul_apply, smul_eq_mul, mat, Pi.zero_apply, one_mul]
        refine sum_eq_zero fun a _ => ?_
        rw [if_pos (by have := a.2; simp [one] at this; omega)]; simp) ⟨0, by simp [one]⟩
      exact one_ne_zero this)
    rw [hdeg]
    exact ⟨_, rfl, by simp⟩
  obtain ⟨D, hc2, hD0⟩ := hcalc2
  have hs2 : s2 = { t1 with modvals := D } := by simp only [s2, hs1, BA.margStats, hc2]
  refine ⟨by rw [hs1]; simp only [BA.margStats, hc2], ?_, ?_, ?_⟩
  · have b1 : BReach one (some [1]) true s1 := by
      have := BReach.other none true BA.new (.marg j1 [1]) [1] (.new (pr := one)) (by simp [Op.okay, BA.margStats, e1, isOk_ok]) rfl (by simp)
      exact this
    exact BReach.raised _ _ _ (.marg j2 [0]) b1 (by rw [hs1]; simp [Op.okay, BA.margStats, hc2, isOk_err])
  · rw [hs2]
    have hens : BA.ensure one j3 { t1 with modvals := D } [1] = ({ t1 with modvals := D }, none) := by
      unfold BA.ensure
      rw [if_neg]
      rintro ⟨-, h⟩
      exact h i1.hl.symm
    refine ⟨fun k => one.std k - forUp 0 one.M (fun a sum => sum + r.A a * D a k) 0, by unfold BA.residuals; rw [hens]; dsimp only; rw [hr], ?_⟩
    have hM : one.M = 1 := rfl
    dsimp only
    rw [hM, forUp_add 0 1 (Nat.zero_le _)]
    simp [hD0, Prob.std, one]
  · obtain ⟨t4, e4, i4⟩ := one_ok j4
    obtain ⟨r4, g4, hr4, hd4, -, -, -, hm4⟩ := i4.hs [1] rfl
    have hens : BA.ensure one j4 BA.new [1] = (t4, none) := by
      unfold BA.ensure
      rw [if_pos ⟨by simp, by simp [BA.new]⟩, e4]
    refine ⟨fun k => one.std k - forUp 0 one.M (fun a sum => sum + r4.A a * t4.modvals a k) 0, by unfold BA.residuals; rw [hens]; dsimp only; rw [hr4], ?_⟩
    have hM : one.M = 1 := rfl
    have hg : g4 0 0 = 1 := by
      cases hd4.1 with
      | ok aux g h1 h2 =>
        have := h2 0 (by simp [one])
        simp only [one, List.headD_cons, Except.ok.injEq] at this
        rw [← this]
    dsimp only
    rw [hM, forUp_add 0 1 (Nat.zero_le _)]
    have := hm4 rfl 0 (by simp [one]) 0
    simp [this, hg, hval t4 r4 g4 hd4, Prob.std, one]

/-- The state after one successful call meets the hypotheses of the theorems. -/
example (j : Arr1) : BReach one (some [1]) true (BA.new.margStats one j [1]).1 := by
  obtain ⟨t1, e1, -⟩ := one_ok j
  exact BReach.other none true BA.new (.marg j [1]) [1] (.new (pr := one)) (by simp [Op.okay, BA.margStats, e1, isOk_ok]) rfl (by simp)

end Verif.Vba
