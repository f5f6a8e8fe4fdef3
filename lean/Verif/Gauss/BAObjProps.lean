import Verif.Gauss.BAObj
import Verif.Gauss.BAProps

/-!
# C97: the Bretthorst algorithm with an object for the model and the data
-/

set_option linter.unusedSectionVars false
set_option linter.unusedSimpArgs false

namespace Verif.Vba

open Finset Matrix

variable {σ : Type}

/-! ## Specification -/

/-- In the states `Ok` the object has the standardised samples `y`, and `set_nonlin(*p)`, called in any of them, leads to another of them and either raises what `f p` says or makes the basis
functions those of `f p`: what they return does not depend on parameters set earlier. -/
structure Sound (ob : Obj σ) (y : Arr1) (f : List ℝ → Except Err (ℕ → Except Err Arr1)) (Ok : σ → Prop) : Prop where
  data : ∀ o, Ok o → ob.smpls o = y
  keeps : ∀ o p, Ok o → Ok (ob.setNonlin p o).1
  sets : ∀ o p, Ok o → (ob.setNonlin p o).2 = none → f p = .ok fun a => ob.basis a (ob.setNonlin p o).1
  fails : ∀ o p e, Ok o → (ob.setNonlin p o).2 = some e → f p = .error e

/-- `g` are the values of the basis functions for parameters `p`. -/
def Values (ob : Obj σ) (f : List ℝ → Except Err (ℕ → Except Err Arr1)) (p : List ℝ) (g : ℕ → Arr1) : Prop := ∃ F, f p = .ok F ∧ ∀ a < ob.M, F a = .ok (g a)

/-- Setting the parameters `p`, or evaluating the basis functions in turn, raises `e`. -/
def Raises (ob : Obj σ) (f : List ℝ → Except Err (ℕ → Except Err Arr1)) (p : List ℝ) (e : Err) : Prop :=
  f p = .error e ∨ ∃ F, f p = .ok F ∧ ∃ a < ob.M, (∀ b < a, ∃ g, F b = .ok g) ∧ F a = .error e

/-- The sum of squared residuals with amplitudes `B`. -/
def ssr (ob : Obj σ) (y : Arr1) (g : ℕ → Arr1) (B : Fin ob.M → ℝ) : ℝ := ∑ k : Fin ob.N, (y k - ∑ a : Fin ob.M, B a * g a k) ^ 2

/-- `A` has the least sum of squares, and no other amplitudes do. -/
def Least (ob : Obj σ) (y : Arr1) (g : ℕ → Arr1) (A : Fin ob.M → ℝ) : Prop := ∀ B, B ≠ A → ssr ob y g A < ssr ob y g B

/-- The design matrix. -/
def basisMat (ob : Obj σ) (g : ℕ → Arr1) : Matrix (Fin ob.M) (Fin ob.N) ℝ := fun a k => g a k

/-- The state after a call, and whether it returned. -/
noncomputable def Op.runO (ob : Obj σ) (s : BAObj σ) : Op → BAObj σ × Bool
  | .marg j p => ((s.margStats ob j p).1, (s.margStats ob j p).2.isOk)
  | .ampl j p => ((s.amplitudes ob j p).1, (s.amplitudes ob j p).2.isOk)
  | .resid j p => ((s.residuals ob j p).1, (s.residuals ob j p).2.isOk)

/-- Others bring the object to the state `o`. -/
def BAObj.outside (s : BAObj σ) (o : σ) : BAObj σ := { s with obj := o }

/-- The states that calls lead to, while others bring the object from one of its states `Ok` to another at any time.  `last` are the parameters of the last call with parameters that returned;
`clean` says that no call raised since other parameters were last analysed. -/
inductive OReach (ob : Obj σ) (Ok : σ → Prop) : Option (List ℝ) → Bool → BAObj σ → Prop
  | new (o : σ) : Ok o → OReach ob Ok none true (BAObj.new ob o)
  | outside (last : Option (List ℝ)) (clean : Bool) (s : BAObj σ) (o : σ) : OReach ob Ok last clean s → Ok o → OReach ob Ok last clean (s.outside o)
  | same (last : Option (List ℝ)) (clean : Bool) (s : BAObj σ) (op : Op) : OReach ob Ok last clean s → (op.runO ob s).2 = true → (op.pars = none ∨ op.pars = last) →
      OReach ob Ok last clean (op.runO ob s).1
  | other (last : Option (List ℝ)) (clean : Bool) (s : BAObj σ) (op : Op) (p : List ℝ) : OReach ob Ok last clean s → (op.runO ob s).2 = true → op.pars = some p → last ≠ some p →
      OReach ob Ok (some p) true (op.runO ob s).1
  | raised (last : Option (List ℝ)) (clean : Bool) (s : BAObj σ) (op : Op) : OReach ob Ok last clean s → (op.runO ob s).2 = false → OReach ob Ok last false (op.runO ob s).1

/-! ## The class `BA` with the same basis functions and data -/

/-- The same problem for `BA`: the setup function is `set_nonlin`, and sigma is one. -/
noncomputable def Obj.prob (ob : Obj σ) (y : Arr1) (f : List ℝ → Except Err (ℕ → Except Err Arr1)) : Prob (ℕ → Except Err Arr1) :=
  ⟨ob.M, ob.N, some f, fun a _ aux => match aux with | none => .error .type | some F => F a, y, fun _ => 1⟩

/-- What the two classes have in common. -/
def BAObj.view (s : BAObj σ) : BA := ⟨s.pars, s.suf, s.Q, s.Jac, s.modvals, s.res⟩

/-- The relation of the simulation. -/
def Sim (ob : Obj σ) (y : Arr1) (f : List ℝ → Except Err (ℕ → Except Err Arr1)) (Ok : σ → Prop) (s : BAObj σ) (b : BA) : Prop :=
  s.view = b ∧ s.dsqr = (ob.prob y f).dsqr ∧ Ok s.obj

section
variable {ob : Obj σ} {y : Arr1} {f : List ℝ → Except Err (ℕ → Except Err Arr1)} {Ok : σ → Prop}

theorem prob_std : (ob.prob y f).std = y := by
  funext i; simp [Prob.std, Obj.prob]

theorem rowsO_eq (p : List ℝ) (o : σ) : ∀ (r a : ℕ) (D : Arr2), rowsO ob o r a D = rows (ob.prob y f) p (some fun a => ob.basis a o) r a D := by
  intro r
  induction r with
  | zero => intro a D; rfl
  | succ r ih =>
    intro a D
    simp only [rowsO, rows]
    have hb : (ob.prob y f).basis a p (some fun a => ob.basis a o) = ob.basis a o := rfl
    rw [hb]
    cases ob.basis a o with
    | error e => rfl
    | ok g =>
      dsimp only
      rw [ih]
      have : (fun i j => if i = a then g j else D i j) = (fun i j => if i = a then g j / (ob.prob y f).sigs j else D i j) := by
        funext i j; simp [Obj.prob]
      rw [this]

theorem sim_calc (hs : Sound ob y f Ok) {s : BAObj σ} {b : BA} (h : Sim ob y f Ok s b) (junk : Arr1) (p : List ℝ) :
    Sim ob y f Ok (s.calc ob junk p).1 (b.calc (ob.prob y f) junk p).1 ∧ (s.calc ob junk p).2 = (b.calc (ob.prob y f) junk p).2 := by
  obtain ⟨hv, hd, hok⟩ := h
  subst hv
  have hp : s.view.pars = s.pars := rfl
  have hm : s.view.modvals = s.modvals := rfl
  unfold BAObj.calc BA.calc
  rw [hp]
  by_cases hc : some p = s.pars
  · rw [if_pos hc, if_pos hc]; exact ⟨⟨rfl, hd, hok⟩, rfl⟩
  · rw [if_neg hc, if_neg hc]
    have hset : (ob.prob y f).setup = some f := rfl
    rw [hset]
    have hk := hs.keeps s.obj p hok
    have h1 := hs.sets s.obj p hok
    have h2 := hs.fails s.obj p
    rcases hr : ob.setNonlin p s.obj with ⟨o, _ | e⟩
    · rw [hr] at hk h1
      have hf := h1 rfl
      simp only [Option.elim_some, hf, Except.map]
      rw [← rowsO_eq (y := y) (f := f) p o, hm]
      have hM : (ob.prob y f).M = ob.M := rfl
      have hN : (ob.prob y f).N = ob.N := rfl
      rw [hM]
      rcases rowsO ob o ob.M 0 s.modvals with ⟨D, _ | e⟩
      · dsimp only
        rw [hN, prob_std, hs.data o hk]
        cases metricAnalysis junk ob.M ob.N ob.N D y with
        | error e => exact ⟨⟨rfl, hd, hk⟩, rfl⟩
        | ok r => exact ⟨⟨by rw [BAObj.view, ← hd], hd, hk⟩, rfl⟩
      · exact ⟨⟨rfl, hd, hk⟩, rfl⟩
    · rw [hr] at hk
      have hf := h2 e hok (by rw [hr])
      simp only [Option.elim_some, hf, Except.map]
      exact ⟨⟨rfl, hd, hk⟩, trivial⟩

theorem sim_ensure (hs : Sound ob y f Ok) {s : BAObj σ} {b : BA} (h : Sim ob y f Ok s b) (junk : Arr1) (p : List ℝ) :
    Sim ob y f Ok (s.ensure ob junk p).1 (b.ensure (ob.prob y f) junk p).1 ∧ (s.ensure ob junk p).2 = (b.ensure (ob.prob y f) junk p).2 := by
  have hp : b.pars = s.pars := by rw [← h.1]; rfl
  unfold BAObj.ensure BA.ensure
  rw [hp]
  by_cases hc : p ≠ [] ∧ some p ≠ s.pars
  · rw [if_pos hc, if_pos hc]; exact sim_calc hs h junk p
  · rw [if_neg hc, if_neg hc]; exact ⟨h, rfl⟩

theorem sim_marg (hs : Sound ob y f Ok) {s : BAObj σ} {b : BA} (h : Sim ob y f Ok s b) (junk : Arr1) (p : List ℝ) :
    Sim ob y f Ok (s.margStats ob junk p).1 (b.margStats (ob.prob y f) junk p).1 ∧ (s.margStats ob junk p).2 = (b.margStats (ob.prob y f) junk p).2 := by
  have h1 := sim_calc hs h junk p
  unfold BAObj.margStats BA.margStats
  rcases hc : s.calc ob junk p with ⟨s', r⟩
  rcases hb : b.calc (ob.prob y f) junk p with ⟨b', r'⟩
  rw [hc, hb] at h1
  obtain ⟨h2, h3⟩ := h1
  dsimp only at h2 h3
  subst h3
  cases r with
  | some e => exact ⟨h2, rfl⟩
  | none => exact ⟨h2, by dsimp only; rw [← h2.1]; rfl⟩

theorem sim_ampl (hs : Sound ob y f Ok) {s : BAObj σ} {b : BA} (h : Sim ob y f Ok s b) (junk : Arr1) (p : List ℝ) :
    Sim ob y f Ok (s.amplitudes ob junk p).1 (b.amplitudes (ob.prob y f) junk p).1 ∧ (s.amplitudes ob junk p).2 = (b.amplitudes (ob.prob y f) junk p).2 := by
  have h1 := sim_ensure hs h junk p
  unfold BAObj.amplitudes BA.amplitudes
  rcases hc : s.ensure ob junk p with ⟨s', r⟩
  rcases hb : b.ensure (ob.prob y f) junk p with ⟨b', r'⟩
  rw [hc, hb] at h1
  obtain ⟨h2, h3⟩ := h1
  dsimp only at h2 h3
  subst h3
  cases r with
  | some e => exact ⟨h2, rfl⟩
  | none =>
    refine ⟨h2, ?_⟩
    have : b'.res = s'.res := by rw [← h2.1]; rfl
    dsimp only
    rw [this]
    cases s'.res <;> rfl

theorem sim_resid (hs : Sound ob y f Ok) {s : BAObj σ} {b : BA} (h : Sim ob y f Ok s b) (junk : Arr1) (p : List ℝ) :
    Sim ob y f Ok (s.residuals ob junk p).1 (b.residuals (ob.prob y f) junk p).1 ∧ (s.residuals ob junk p).2 = (b.residuals (ob.prob y f) junk p).2 := by
  have h1 := sim_ensure hs h junk p
  unfold BAObj.residuals BA.residuals
  rcases hc : s.ensure ob junk p with ⟨s', r⟩
  rcases hb : b.ensure (ob.prob y f) junk p with ⟨b', r'⟩
  rw [hc, hb] at h1
  obtain ⟨h2, h3⟩ := h1
  dsimp only at h2 h3
  subst h3
  cases r with
  | some e => exact ⟨h2, rfl⟩
  | none =>
    refine ⟨h2, ?_⟩
    have e1 : b'.res = s'.res := by rw [← h2.1]; rfl
    have e2 : b'.modvals = s'.modvals := by rw [← h2.1]; rfl
    dsimp only
    rw [e1, e2, prob_std, hs.data s'.obj h2.2.2]
    cases s'.res <;> rfl

theorem sim_covar {s : BAObj σ} {b : BA} (h : Sim ob y f Ok s b) : s.covar ob = b.covar (ob.prob y f) := by
  rw [← h.1]; rfl

theorem sim_op (hs : Sound ob y f Ok) {s : BAObj σ} {b : BA} (h : Sim ob y f Ok s b) (op : Op) :
    Sim ob y f Ok (op.runO ob s).1 (op.run (ob.prob y f) b) ∧ (op.runO ob s).2 = op.okay (ob.prob y f) b := by
  cases op with
  | marg j p => have := sim_marg hs h j p; exact ⟨this.1, by simp only [Op.runO, Op.okay, this.2]⟩
  | ampl j p => have := sim_ampl hs h j p; exact ⟨this.1, by simp only [Op.runO, Op.okay, this.2]⟩
  | resid j p => have := sim_resid hs h j p; exact ⟨this.1, by simp only [Op.runO, Op.okay, this.2]⟩

theorem OReach.sim (hs : Sound ob y f Ok) {last : Option (List ℝ)} {clean : Bool} {s : BAObj σ} (h : OReach ob Ok last clean s) :
    ∃ b, BReach (ob.prob y f) last clean b ∧ Sim ob y f Ok s b := by
  induction h with
  | new o ho => exact ⟨BA.new, .new, rfl, by simp only [BAObj.new, Prob.dsqr, prob_std, hs.data o ho]; rfl, ho⟩
  | outside last clean s o _ ho ih => obtain ⟨b, hb, h1, h2, -⟩ := ih; exact ⟨b, hb, h1, h2, ho⟩
  | same last clean s op _ hok hp ih =>
    obtain ⟨b, hb, h⟩ := ih
    have := sim_op hs h op
    exact ⟨_, .same last clean b op hb (this.2 ▸ hok) hp, this.1⟩
  | other last clean s op p _ hok hp hl ih =>
    obtain ⟨b, hb, h⟩ := ih
    have := sim_op hs h op
    exact ⟨_, .other last clean b op p hb (this.2 ▸ hok) hp hl, this.1⟩
  | raised last clean s op _ hok ih =>
    obtain ⟨b, hb, h⟩ := ih
    have := sim_op hs h op
    exact ⟨_, .raised last clean b op hb (this.2 ▸ hok), this.1⟩

theorem model_values {p : List ℝ} {g : ℕ → Arr1} (h : Model (ob.prob y f) p (.ok g)) : Values ob f p g := by
  cases h with
  | ok aux g h1 h2 =>
    have e : (ob.prob y f).setup = some f := rfl
    rw [e] at h1
    simp only [Option.elim_some] at h1
    cases hf : f p with
    | error e => rw [hf] at h1; cases h1
    | ok F =>
      rw [hf] at h1
      simp only [Except.map, Except.ok.injEq] at h1
      subst h1
      exact ⟨F, hf, fun a ha => h2 a ha⟩

theorem model_raises {p : List ℝ} {e : Err} (h : Model (ob.prob y f) p (.error e)) : Raises ob f p e := by
  cases h with
  | setup f' e h1 h2 =>
    have e : (ob.prob y f).setup = some f := rfl
    rw [e] at h1
    cases h1
    exact Or.inl h2
  | basis aux a e h1 h2 h3 h4 =>
    have e : (ob.prob y f).setup = some f := rfl
    rw [e] at h1
    simp only [Option.elim_some] at h1
    cases hf : f p with
    | error e => rw [hf] at h1; cases h1
    | ok F =>
      rw [hf] at h1
      simp only [Except.map, Except.ok.injEq] at h1
      subst h1
      exact Or.inr ⟨F, hf, a, h2, h3, h4⟩

theorem chi2_prob (g : ℕ → Arr1) (B : Fin ob.M → ℝ) : chi2 (ob.prob y f) g B = ssr ob y g B := by
  change ∑ k : Fin ob.N, ((y k - ∑ a : Fin ob.M, B a * g a k) / 1) ^ 2 = _
  simp [ssr]

theorem best_least {g : ℕ → Arr1} {A : Fin ob.M → ℝ} (h : Best (ob.prob y f) g A) : Least ob y g A := by
  intro B hB
  have := h B hB
  rwa [chi2_prob, chi2_prob] at this

theorem design_prob (g : ℕ → Arr1) : design (ob.prob y f) g = basisMat ob g := by
  funext a k
  change g a k / 1 = g a k
  simp

/-! ## Theorems -/

/-- **C97** (statistics, part).  While the samples of the object stay the same, and whatever else others do to it between calls, such as setting other nonlinear parameters: `marg_stats(p)` either
returns the least sum of squared residuals over all amplitudes at `p`, the sum of squares of the data less this, and the reciprocal of the root of the determinant of the metric at `p`; or it
raises what the object raises at `p`; or a ValueError, and the basis functions at `p` are linearly dependent.
Missing: samples that change (`C97_violated`). -/
theorem C97_stats_partial (hs : Sound ob y f Ok) {last : Option (List ℝ)} {clean : Bool} {s : BAObj σ} (h : OReach ob Ok last clean s) (junk : Arr1) (p : List ℝ) :
    (∃ g A J, Values ob f p g ∧ Least ob y g A ∧ 0 < J ∧ J ^ 2 * (basisMat ob g * (basisMat ob g)ᵀ).det = 1 ∧
      (s.margStats ob junk p).2 = .ok (some (ssr ob y g A), some ((∑ k : Fin ob.N, (y k) ^ 2) - ssr ob y g A), some J)) ∨
    (∃ e, Raises ob f p e ∧ (s.margStats ob junk p).2 = .error e) ∨
    (∃ g, Values ob f p g ∧ ¬ LinearIndependent ℝ (fun a => basisMat ob g a) ∧ (s.margStats ob junk p).2 = .error .value) := by
  obtain ⟨b, hb, hsim⟩ := h.sim hs
  rw [(sim_marg hs hsim junk p).2]
  rcases C68_stats hb junk p with ⟨g, A, J, h1, h2, h3, h4, h5⟩ | ⟨e, h1, h2⟩ | ⟨g, h1, h2, h3⟩
  · left
    refine ⟨g, A, J, model_values h1, best_least h2, h3, by rw [← design_prob (y := y) (f := f)]; exact h4, ?_⟩
    have hchi : chi2 (ob.prob y f) g A = ssr ob y g A := chi2_prob g A
    rw [h5, hchi]
    have : ∑ k : Fin (ob.prob y f).N, ((ob.prob y f).smpls k / (ob.prob y f).sigs k) ^ 2 = ∑ k : Fin ob.N, (y k) ^ 2 := by
      change ∑ k : Fin ob.N, (y k / 1) ^ 2 = _
      simp
    rw [this]
  · right; left; exact ⟨e, model_raises h1, h2⟩
  · right; right; exact ⟨g, model_values h1, by rw [← design_prob (y := y) (f := f)]; exact h2, h3⟩

/-- **C97** (amplitudes, part).  Under the same conditions, `amplitudes(p)` returns the amplitudes with the least sum of squared residuals at `p`, or raises as `marg_stats` does.  Without
parameters it returns those of the last call that returned, and raises an AttributeError if there is none.
Missing: samples that change (`C97_violated`). -/
theorem C97_amplitudes_partial (hs : Sound ob y f Ok) {last : Option (List ℝ)} {clean : Bool} {s : BAObj σ} (h : OReach ob Ok last clean s) (junk : Arr1) (p : List ℝ) :
    (∃ q g A, (q = p ∨ (p = [] ∧ last = some q)) ∧ Values ob f q g ∧ Least ob y g (fun a => A a) ∧ (s.amplitudes ob junk p).2 = .ok A) ∨
    (p ≠ [] ∧ ∃ e, Raises ob f p e ∧ (s.amplitudes ob junk p).2 = .error e) ∨
    (p ≠ [] ∧ ∃ g, Values ob f p g ∧ ¬ LinearIndependent ℝ (fun a => basisMat ob g a) ∧ (s.amplitudes ob junk p).2 = .error .value) ∨
    (p = [] ∧ last = none ∧ (s.amplitudes ob junk p).2 = .error .attribute) := by
  obtain ⟨b, hb, hsim⟩ := h.sim hs
  rw [(sim_ampl hs hsim junk p).2]
  rcases C68_amplitudes hb junk p with ⟨q, g, A, h1, h2, h3, h4⟩ | ⟨h0, e, h1, h2⟩ | ⟨h0, g, h1, h2, h3⟩ | h
  · left; exact ⟨q, g, A, h1, model_values h2, best_least h3, h4⟩
  · right; left; exact ⟨h0, e, model_raises h1, h2⟩
  · right; right; left; exact ⟨h0, g, model_values h1, by rw [← design_prob (y := y) (f := f)]; exact h2, h3⟩
  · right; right; right; exact h

/-- **C97** (covariance).  `covar()` is the inverse of the metric at the parameters of the last call that returned, whatever parameters others set since; it raises a ValueError if there is
none. -/
theorem C97_covar (hs : Sound ob y f Ok) {last : Option (List ℝ)} {clean : Bool} {s : BAObj σ} (h : OReach ob Ok last clean s) :
    (last = none → s.covar ob = .error .value) ∧
    (∀ q, last = some q → ∃ g C, Values ob f q g ∧ s.covar ob = .ok C ∧ (fun (a b : Fin ob.M) => C a b) = (basisMat ob g * (basisMat ob g)ᵀ)⁻¹) := by
  obtain ⟨b, hb, hsim⟩ := h.sim hs
  rw [sim_covar hsim]
  refine ⟨(C68_covar hb).1, fun q hq => ?_⟩
  obtain ⟨g, C, h1, h2, h3⟩ := (C68_covar hb).2 q hq
  exact ⟨g, C, model_values h1, h2, by rw [← design_prob (y := y) (f := f)]; exact h3⟩

/-- **C97** (residuals, part).  Under the same conditions, and if no call raised since parameters were last analysed or if `p` are not the parameters of the last call that returned, a result of
`residuals(p)` is the vector of residuals of the model at `p` with the best amplitudes.
Missing: samples that change (`C97_violated`) and earlier parameters after a call that raised
(`C68_violated`). -/
theorem C97_residuals_partial (hs : Sound ob y f Ok) {last : Option (List ℝ)} {clean : Bool} {s : BAObj σ} (h : OReach ob Ok last clean s) (junk : Arr1) (p : List ℝ)
    (hc : clean = true ∨ (p ≠ [] ∧ last ≠ some p)) {R : Arr1} (hR : (s.residuals ob junk p).2 = .ok R) :
    ∃ q g A, (q = p ∨ (p = [] ∧ last = some q)) ∧ Values ob f q g ∧ Least ob y g A ∧ ∀ k : Fin ob.N, R k = y k - ∑ a : Fin ob.M, A a * g a k := by
  obtain ⟨b, hb, hsim⟩ := h.sim hs
  rw [(sim_resid hs hsim junk p).2] at hR
  obtain ⟨q, g, A, h1, h2, h3, h4⟩ := C68_residuals_partial hb junk p hc hR
  refine ⟨q, g, A, h1, model_values h2, best_least h3, fun k => ?_⟩
  have := h4 k
  change R k = (y k - ∑ a : Fin ob.M, A a * g a k) / 1 at this
  rw [this, div_one]

end

/-! ## The violation -/

/-- An object with one sample and one basis function, which is the constant given as the nonlinear parameter.  Its state is the sample and the parameter. -/
def flat : Obj (ℝ × ℝ) := ⟨1, 1, fun p o => ((o.1, p.headD 0), none), fun _ o => .ok fun _ => o.2, fun o _ => o.1⟩

/-- The object is sound while its sample is `y`. -/
theorem flat_sound (y : ℝ) : Sound flat (fun _ => y) (fun p => .ok fun _ => .ok fun _ => p.headD 0) (fun o => o.1 = y) where
  data := by intro o h; funext k; exact h
  keeps := by intro o p h; exact h
  sets := by intro o p h _; rfl
  fails := by intro o p e h he; cases he

/-- At parameter one the analysis succeeds, and the statistic is the square of the sample. -/
theorem flat_calc (s : BAObj (ℝ × ℝ)) (junk : Arr1) (h : s.pars = none) :
    ∃ J o, (s.margStats flat junk [1]).2 = .ok (some (s.dsqr - s.obj.1 ^ 2), some (s.obj.1 ^ 2), some J) ∧ (s.margStats flat junk [1]).1.pars = some [1] ∧
      (s.margStats flat junk [1]).1.Q = some (s.dsqr - s.obj.1 ^ 2) ∧ (s.margStats flat junk [1]).1.suf = some (s.obj.1 ^ 2) ∧ (s.margStats flat junk [1]).1.Jac = some J ∧
      (s.margStats flat junk [1]).1.obj = o := by
  have hm : ∀ D : Arr2, (D 0 0 = 1) → ∃ r, metricAnalysis junk 1 1 1 D (fun _ => s.obj.1) = .ok r ∧ r.S = s.obj.1 ^ 2 := by
    intro D hD
    have hl : LinearIndependent ℝ (fun a => mat 1 1 D a) := by
      rw [Fintype.linearIndependent_iff]
      intro c hc i
      have := congrFun hc 0
      simp only [Finset.sum_apply, Fin.sum_univ_one, Pi.smul_apply, smul_eq_mul, mat, Pi.zero_apply, Fin.val_zero, hD, mul_one] at this
      rw [Subsingleton.elim i 0]; exact this
    cases hr : metricAnalysis junk 1 1 1 D (fun _ => s.obj.1) with
    | error e =>
      have := (C65_degenerate junk 1 1 D (fun _ => s.obj.1))
      exact absurd hl (this.1.1 (this.2.1 ⟨e, hr⟩))
    | ok r =>
      obtain ⟨h1, h2⟩ := C66_minimum hr
      refine ⟨r, rfl, ?_⟩
      have h0 : chisq 1 1 D (fun _ => s.obj.1) (fun _ => s.obj.1) = 0 := by
        simp [chisq, hD]
      have hz : chisq 1 1 D (fun _ => s.obj.1) (vec 1 r.A) = 0 := by
        have hn : 0 ≤ chisq 1 1 D (fun _ => s.obj.1) (vec 1 r.A) := by
          unfold chisq; exact Finset.sum_nonneg fun _ _ => by first | exact sq_nonneg _ | exact mul_self_nonneg _
        by_contra hne
        have := h2 (fun _ => s.obj.1) (fun he => hne (he ▸ h0))
        rw [h0] at this
        linarith
      rw [hz] at h1
      simp only [Fin.sum_univ_one] at h1
      nlinarith
  obtain ⟨r, hr, hS⟩ := hm (fun i j => if i = 0 then (1 : ℝ) else s.modvals i j) (by simp)
  have hcalc : s.calc flat junk [1] = (⟨(s.obj.1, 1), s.dsqr, some [1], some r.S, some (s.dsqr - r.S), some (1 / r.rdet), fun i j => if i = 0 then (1 : ℝ) else s.modvals i j, some r⟩, none) := by
    unfold BAObj.calc
    rw [h, if_neg (by simp)]
    have h1 : flat.setNonlin [1] s.obj = ((s.obj.1, 1), none) := rfl
    rw [h1]
    have h2 : rowsO flat (s.obj.1, 1) flat.M 0 s.modvals = (fun i j => if i = 0 then (1 : ℝ) else s.modvals i j, none) := rfl
    dsimp only
    rw [h2]
    have h3 : metricAnalysis junk flat.M flat.N flat.N (fun i j => if i = 0 then (1 : ℝ) else s.modvals i j) (flat.smpls (s.obj.1, 1)) = .ok r := hr
    dsimp only
    rw [h3]
  refine ⟨1 / r.rdet, (s.obj.1, 1), ?_⟩
  rw [← hS]
  simp only [BAObj.margStats, hcalc, and_self]

/-- **C97 is violated when the samples change**: the sum of squares of the data is computed once, and results are kept by the parameters alone.  With the object `flat` and the sample one: when
others set the sample to two before the first call, `marg_stats(1)` returns the sum of squared residuals minus three.  When they do so after `marg_stats(1)`, another `marg_stats(1)` returns the
sufficient statistic one, of the old sample.  An object made after the change returns zero and four. -/
theorem C97_violated (j1 j2 j3 j4 : Arr1) :
    let s := BAObj.new flat (1, 0)
    (∃ suf J, ((s.outside (2, 0)).margStats flat j1 [1]).2 = .ok (some (-3), suf, J)) ∧
    (∃ J, (((s.margStats flat j2 [1]).1.outside (2, 0)).margStats flat j3 [1]).2 = .ok (some 0, some 1, some J)) ∧
    (∃ J, ((BAObj.new flat (2, 0)).margStats flat j4 [1]).2 = .ok (some 0, some 4, some J)) := by
  intro s
  have hd : s.dsqr = 1 := by
    simp only [s, BAObj.new]
    rw [forUp_add 0 _ (Nat.zero_le _)]
    simp [flat]
  have hd2 : (BAObj.new flat (2, 0)).dsqr = 4 := by
    simp only [BAObj.new]
    rw [forUp_add 0 _ (Nat.zero_le _)]
    simp [flat]; norm_num
  refine ⟨?_, ?_, ?_⟩
  · obtain ⟨J, o, h, -⟩ := flat_calc (s.outside (2, 0)) j1 rfl
    refine ⟨some ((s.outside (2, 0)).obj.1 ^ 2), some J, h.trans ?_⟩
    have : (s.outside (2, 0)).dsqr - (s.outside (2, 0)).obj.1 ^ 2 = -3 := by
      change s.dsqr - (2 : ℝ) ^ 2 = -3
      rw [hd]; norm_num
    rw [this]
  · obtain ⟨J, o, -, hp, hq, hS, hJ, -⟩ := flat_calc s j2 rfl
    refine ⟨J, ?_⟩
    generalize (s.margStats flat j2 [1]).1 = t at hp hq hS hJ
    have hc : (t.outside (2, 0)).calc flat j3 [1] = (t.outside (2, 0), none) := by
      unfold BAObj.calc
      rw [if_pos (show some [1] = (t.outside (2, 0)).pars from hp.symm)]
    unfold BAObj.margStats
    rw [hc]
    change Except.ok (t.Q, t.suf, t.Jac) = _
    rw [hq, hS, hJ, hd]
    simp [s, BAObj.new]
  · obtain ⟨J, o, h, -⟩ := flat_calc (BAObj.new flat (2, 0)) j4 rfl
    refine ⟨J, h.trans ?_⟩
    rw [hd2]
    simp [BAObj.new]; norm_num

/-- The conditions of the theorems are met: after `marg_stats(1)`, when others have set the parameter to five, the amplitudes asked for again are those at one. -/
example (j1 j2 : Arr1) : ∃ s, OReach flat (fun o => o.1 = 3) (some [1]) true s ∧ s.obj.2 = 5 ∧
    ∃ A, (s.amplitudes flat j2 [1]).2 = .ok A ∧ A 0 = 3 := by
  obtain ⟨J, o, h, -⟩ := flat_calc (BAObj.new flat (3, 0)) j1 rfl
  have hr : OReach flat (fun o => o.1 = 3) (some [1]) true (((BAObj.new flat (3, 0)).margStats flat j1 [1]).1.outside (3, 5)) :=
    .outside _ _ _ _ (.other none true _ (.marg j1 [1]) [1] (.new _ rfl) (by simp only [Op.runO]; rw [h]; rfl) rfl (by simp)) rfl
  refine ⟨_, hr, rfl, ?_⟩
  have hone : ∀ g : ℕ → Arr1, Values flat (fun p => .ok fun _ => .ok fun _ => p.headD 0) [1] g → g 0 = fun _ => 1 := by
    rintro g ⟨F, hF, hg⟩
    cases hF
    have := hg 0 (by simp [flat])
    simpa using this.symm
  have hli : ∀ g : ℕ → Arr1, g 0 = (fun _ => 1) → LinearIndependent ℝ (fun a => basisMat flat g a) := by
    intro g hg
    rw [Fintype.linearIndependent_iff]
    intro c hc i
    have := congrFun hc (0 : Fin 1)
    change (∑ a : Fin 1, c a • basisMat flat g a) (0 : Fin 1) = 0 at this
    rw [Fin.sum_univ_one] at this
    change c (0 : Fin 1) * g 0 0 = 0 at this
    rw [hg, mul_one] at this
    have hi : i = (0 : Fin 1) := Subsingleton.elim (α := Fin 1) _ _
    rw [hi]; exact this
  rcases C97_amplitudes_partial (flat_sound 3) hr j2 [1] with ⟨q, g, A, hq, hv, hl, hA⟩ | ⟨-, e, he, -⟩ | ⟨-, g, hv, hd, -⟩ | ⟨hn, -⟩
  · refine ⟨A, hA, ?_⟩
    rcases hq with rfl | ⟨hn, -⟩
    · have hg := hone g hv
      by_contra hne
      have hlt := hl (fun _ => 3) (fun hz => hne (congrFun hz (0 : Fin 1)).symm)
      have h0 : ssr flat (fun _ => 3) g (fun _ => 3) = 0 := by
        change ∑ k : Fin 1, ((3 : ℝ) - ∑ a : Fin 1, 3 * g a k) ^ 2 = 0
        rw [Fin.sum_univ_one, Fin.sum_univ_one]
        change ((3 : ℝ) - 3 * g 0 0) ^ 2 = 0
        rw [hg]; norm_num
      have h1 : 0 ≤ ssr flat (fun _ => 3) g (fun a => A a) := Finset.sum_nonneg fun _ _ => sq_nonneg _
      linarith
    · cases hn
  · rcases he with he | ⟨F, hF, a, -, -, hz⟩
    · cases he
    · cases hF; cases hz
  · exact absurd (hli g (hone g hv)) hd
  · cases hn

end Verif.Vba
