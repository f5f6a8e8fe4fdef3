import Verif.Pie.Posterior
import Verif.Pie.GridLemmas
import Verif.Pie.VaryProps
import Verif.Pie.StepLemmas
import Verif.Deriv.ObsRunLemmas

/-!
# Bayesian inferences: properties

C98: what `obs_info` returns, and what it leaves behind.
-/

set_option linter.unusedSectionVars false
set_option linter.unusedSimpArgs false

namespace Verif.Pie
open Verif.Obs

/-! ## Specification -/

/-- The log of prior times likelihood as a function of the values `x 1, x 2, ...` of the varying parameters, in their order; the other parameters have the values that the user reads in `s`. -/
noncomputable def PostEnv.post (e : PostEnv) (s : Inf ℝ) (x : Vec) : ℝ :=
  let vals := fun j => if j ∈ s.varying then x (s.varying.idxOf j + 1) else s.read e.cfg j
  (e.likes.map fun f => f vals).sum + e.prior vals

/-- Every value is in the range of its parameter. -/
def InRange (s : Inf ℝ) (x : Vec) : Prop := ∀ k i lo hi, s.varying[k]? = some i → s.bounds i = some (lo, hi) → lo ≤ x (k + 1) ∧ x (k + 1) ≤ hi

open Classical in
/-- The function above, where values out of range raise `ParamRangeError`. -/
noncomputable def PostEnv.fn (e : PostEnv) (s : Inf ℝ) : LogF := fun x => if InRange s x then .ok (e.post s x) else .error .paramRange

/-- What `obs_info` is meant to return: `obsinfo` of that function, at `mode`, with the steps that `dllsteps` finds. -/
noncomputable def PostEnv.intended (e : PostEnv) (fuel : ℕ) (s : Inf ℝ) (mode gs : Vec) (dlogp m : ℝ) (n : ℕ) (junk : Junk) : Option (Except Stop Info) :=
  match dllsteps fuel (e.fn s) s.varying.length mode gs dlogp (some m) 20 (1 / 100) with
  | none => none
  | some (_, _, .error x) => some (.error x)
  | some (_, _, .ok d) => some (obsinfo (e.fn s) s.varying.length mode d (some m) n junk).2

/-- Nothing but the values of varying parameters differs. -/
structure Kin (c : Cfg ℝ) (s0 s : Inf ℝ) : Prop where
  calm : Calm c s0 s
  vary : ∀ i, s0.status i = .varying → ∃ hd v, s0.h i = some hd ∧ s.h i = some { hd with value := some v }

/-- The varying parameters have the values `x`, and the last evaluation was made there. -/
structure Sits (e : PostEnv) (s0 : Inf ℝ) (s : Post) (x : Vec) : Prop where
  values : ∀ k i, s0.varying[k]? = some i → s.inf.value i = some (x (k + 1))
  last : ∃ l p, s.logLike = some l ∧ s.logPrior = some p ∧ l + p = e.post s0 x

/-! ## Lemmas -/

theorem like_eq (e : PostEnv) (vals : ℕ → ℝ) : e.like vals = (e.likes.map fun f => f vals).sum := by
  unfold PostEnv.like
  have : ∀ (l : List ((ℕ → ℝ) → ℝ)) (a : ℝ), l.foldl (fun a f => a + f vals) a = a + (l.map fun f => f vals).sum := by
    intro l
    induction l with
    | nil => intro a; simp
    | cons f l ih => intro a; rw [List.foldl_cons, ih, List.map_cons, List.sum_cons]; ring
  rw [this, zero_add]

variable {c : Cfg ℝ}

theorem Kin.refl {s : Inf ℝ} (hs : Inv s) : Kin c s s := by
  refine ⟨Calm.refl hs, fun i hi => ?_⟩
  obtain ⟨hd, hh, hd'⟩ := h_of_status hi (by decide)
  obtain ⟨v, hv⟩ := Option.isSome_iff_exists.mp (hs.val i hd hh (by rw [hd']; decide))
  exact ⟨hd, v, hh, by rw [hh, ← hv]⟩

theorem Kin.status {s0 s : Inf ℝ} (h0 : Inv s0) (h : Kin c s0 s) (i : ℕ) : s.status i = .varying ↔ s0.status i = .varying := by
  rw [← h.calm.inv.mem_varying, h.calm.varying, h0.mem_varying]

theorem Kin.bounds {s0 s : Inf ℝ} (h : Kin c s0 s) {i : ℕ} (hi : s0.status i = .varying) : s.bounds i = s0.bounds i := by
  obtain ⟨hd, v, h1, h2⟩ := h.vary i hi
  simp [Inf.bounds, h1, h2]

theorem Kin.of_h {s0 s s' : Inf ℝ} (h0 : Inv s0) (h : Kin c s0 s) (hc : Calm c s s') (hh : ∀ i, s.status i = .varying → s'.h i = s.h i) : Kin c s0 s' := by
  refine ⟨h.calm.trans h0 hc, fun i hi => ?_⟩
  obtain ⟨hd, v, h1, h2⟩ := h.vary i hi
  exact ⟨hd, v, h1, by rw [hh i ((h.status h0 i).mpr hi), h2]⟩

theorem Kin.putValue {s0 s : Inf ℝ} (h0 : Inv s0) (h : Kin c s0 s) {i : ℕ} {hd : Handler ℝ} (hh : s.h i = some hd) (hst : hd.status = .varying) (v : ℝ) : Kin c s0 (s.putValue i hd v) := by
  refine ⟨h.calm.trans h0 (calm_putValue c h.calm.inv hh hst v), fun j hj => ?_⟩
  obtain ⟨hd0, v0, h1, h2⟩ := h.vary j hj
  by_cases hji : j = i
  · subst hji
    rw [hh] at h2
    cases h2
    exact ⟨hd0, v, h1, by simp [Inf.putValue, Inf.setH]⟩
  · exact ⟨hd0, v0, h1, by rw [putValue_ne _ _ _ hji, h2]⟩

theorem setVaryingLoop_kin {s0 : Inf ℝ} (h0 : Inv s0) (l : List (ℕ × ℝ)) : ∀ {s : Inf ℝ}, Kin c s0 s → Kin c s0 (Inf.setVaryingLoop l s).1 := by
  induction l with
  | nil => intro s hs; exact hs
  | cons p l ih =>
    intro s hs
    obtain ⟨i, v⟩ := p
    unfold Inf.setVaryingLoop
    cases hh : s.h i with
    | none => exact hs
    | some hd =>
      dsimp only
      have : s.setValueH i hd v = (s.putValue i hd v, none) ∧ hd.status = .varying ∨ ∃ e, s.setValueH i hd v = (s, some e) := by
        unfold Inf.setValueH
        by_cases h : hd.status ≠ .varying
        · rw [if_pos h]; exact Or.inr ⟨_, rfl⟩
        · rw [if_neg h]
          push Not at h
          split
          · split_ifs
            · exact Or.inl ⟨rfl, h⟩
            · exact Or.inr ⟨_, rfl⟩
          · exact Or.inl ⟨rfl, h⟩
      rcases this with ⟨e, hst⟩ | ⟨x, e⟩
      · rw [e]
        exact ih (hs.putValue h0 hh hst v)
      · rw [e]
        exact hs

theorem access_h (c : Cfg ℝ) {s : Inf ℝ} (hs : Inv s) (i j : ℕ) (hj : s.status j = .varying) : (s.access c i).1.h j = s.h j := by
  rcases access_cases c hs i with ⟨_, h⟩ | ⟨hu, hn, s', h, hm⟩
  · rw [h]; rfl
  · rw [h]
    have hne : j ≠ i := by rintro rfl; rw [hu] at hj; exact absurd hj (by decide)
    show s'.h j = _
    rw [hm.other j hne]; simp

theorem accessAll_h (c : Cfg ℝ) (l : List ℕ) : ∀ {s : Inf ℝ} (_ : Inv s) (j : ℕ), s.status j = .varying → (Inf.accessAll c l s).1.h j = s.h j := by
  induction l with
  | nil => intro s _ j _; rfl
  | cons i l ih =>
    intro s hs j hj
    have h1 := (access_ok c hs i).1
    have h2 := access_calm c hs i
    have h3 := access_h c hs i j hj
    unfold Inf.accessAll
    have e : s.access c i = ok (s.access c i).1 := Prod.ext rfl h1
    rw [e]
    show (Inf.accessAll c l (s.access c i).1).1.h j = _
    rw [ih h2.inv j (by rw [← h2.inv.mem_varying, h2.varying, hs.mem_varying]; exact hj), h3]

theorem setVaryingLoop_bad (l : List (ℕ × ℝ)) : ∀ {s : Inf ℝ} (_ : Inv s) (_ : (l.map Prod.fst).Nodup) (_ : ∀ p ∈ l, s.status p.1 = .varying) (_ : ∃ p ∈ l, ¬ s.admits p.1 p.2),
    (Inf.setVaryingLoop l s).2 = some .paramRange := by
  induction l with
  | nil => rintro s hs _ _ ⟨p, hp, -⟩; simp at hp
  | cons p l ih =>
    intro s hs hnd hst hbad
    obtain ⟨i, v⟩ := p
    simp only [List.map_cons, List.nodup_cons] at hnd
    obtain ⟨hd, hh, hd'⟩ := h_of_status (hst (i, v) (by simp)) (by decide)
    have hne : ∀ p ∈ l, p.1 ≠ i := fun p hp e => hnd.1 (by rw [← e]; exact List.mem_map_of_mem hp)
    unfold Inf.setVaryingLoop
    simp only [hh]
    by_cases ha : s.admits i v
    · have e1 : s.setValueH i hd v = ok (s.putValue i hd v) := by
        unfold Inf.setValueH
        rw [if_neg (not_not.mpr hd')]
        split
        · rename_i lo hi hb
          rw [if_pos]
          exact ha lo hi (by simp [Inf.bounds, hh, hb])
        · rfl
      rw [e1]
      have hi1 : Inv (s.putValue i hd v) := hs.putValue v (status_eq_of_h hh).symm (by rw [hd']; decide)
      have hoff : ∀ j, j ≠ i → (s.putValue i hd v).h j = s.h j := fun j hj => putValue_ne _ _ _ hj
      apply ih hi1 hnd.2 (fun p hp => by rw [Inf.status, hoff _ (hne p hp)]; exact hst p (by simp [hp]))
      obtain ⟨p, hp, hb⟩ := hbad
      simp only [List.mem_cons] at hp
      rcases hp with rfl | hp
      · exact absurd ha hb
      · exact ⟨p, hp, by unfold Inf.admits Inf.bounds; rw [hoff _ (hne p hp)]; exact hb⟩
    · have e1 : s.setValueH i hd v = raise .paramRange s := by
        unfold Inf.setValueH
        rw [if_neg (not_not.mpr hd')]
        cases hb : hd.bounds with
        | none => exact absurd (fun lo hi h => by simp [Inf.bounds, hh, hb] at h) ha
        | some b =>
          obtain ⟨lo, hi⟩ := b
          dsimp only
          rw [if_neg]
          intro h
          apply ha
          intro lo' hi' h'
          simp only [Inf.bounds, hh, Option.bind_some, hb, Option.some.injEq, Prod.mk.injEq] at h'
          obtain ⟨rfl, rfl⟩ := h'
          exact h
      rw [e1]; rfl

/-- The pairs that `_logp_func` sets. -/
theorem mem_args (V : List ℕ) (x : Vec) (p : ℕ × ℝ) : p ∈ V.zip ((List.range V.length).map fun k => x (k + 1)) ↔ ∃ k, V[k]? = some p.1 ∧ p.2 = x (k + 1) := by
  constructor
  · intro h
    obtain ⟨k, hk, e⟩ := List.mem_iff_getElem.mp h
    have hk' : k < V.length := by simp at hk; exact hk
    rw [List.getElem_zip] at e
    refine ⟨k, ?_, ?_⟩
    · rw [List.getElem?_eq_getElem hk', ← e]
    · rw [← e]; simp
  · rintro ⟨k, h1, h2⟩
    obtain ⟨hk, e⟩ := List.getElem?_eq_some_iff.mp h1
    rw [List.mem_iff_getElem]
    refine ⟨k, by simp [hk], ?_⟩
    rw [List.getElem_zip]
    ext <;> simp [e, h2]

theorem fst_args (V : List ℕ) (x : Vec) : (V.zip ((List.range V.length).map fun k => x (k + 1))).map Prod.fst = V := List.map_fst_zip (by simp)

/-- `_logp_func` is the function of the specification, whatever was called before. -/
theorem acts (e : PostEnv) {s0 : Inf ℝ} (h0 : Inv s0) : Acts e.logpFunc (e.fn s0) (fun st => Kin e.cfg s0 st.inf) (Sits e s0) := by
  intro x st hst
  have hV := hst.calm.varying
  have hvar : ∀ p ∈ s0.varying.zip ((List.range s0.varying.length).map fun k => x (k + 1)), st.inf.status p.1 = .varying := by
    intro p hp
    obtain ⟨k, h1, -⟩ := (mem_args _ _ _).mp hp
    exact (hst.status h0 _).mpr ((h0.mem_varying _).mp (List.mem_of_getElem? h1))
  unfold PostEnv.logpFunc
  rw [hV]
  by_cases hr : InRange s0 x
  · have hfn : e.fn s0 x = .ok (e.post s0 x) := by unfold PostEnv.fn; rw [if_pos hr]
    obtain ⟨s1, e1, i1, l1, o1, -⟩ := setVaryingLoop_ok (s0.varying.zip ((List.range s0.varying.length).map fun k => x (k + 1))) hst.calm.inv (by rw [fst_args]; exact h0.varying_nd) hvar
      (by
        intro p hp lo hi hb
        obtain ⟨k, h1, h2⟩ := (mem_args _ _ _).mp hp
        rw [h2]
        rw [hst.bounds ((h0.mem_varying _).mp (List.mem_of_getElem? h1))] at hb
        exact hr k _ lo hi h1 hb)
    have k1 : Kin e.cfg s0 s1 := by have := setVaryingLoop_kin (c := e.cfg) h0 (s0.varying.zip ((List.range s0.varying.length).map fun k => x (k + 1))) hst; rw [e1] at this; exact this
    rw [e1]
    dsimp only
    unfold PostEnv.score
    dsimp only
    have a1 := accessAll_ok e.cfg e.cfg.params i1
    have a2 := accessAll_calm e.cfg e.cfg.params i1
    have a3 := fun j => accessAll_h e.cfg e.cfg.params i1 j
    rcases e2 : Inf.accessAll e.cfg e.cfg.params s1 with ⟨s2, r2⟩
    rw [e2] at a1 a2 a3
    dsimp only at a1 a2 a3
    subst a1
    dsimp only
    have k2 : Kin e.cfg s0 s2 := k1.of_h h0 a2 a3
    have hval : ∀ k i, s0.varying[k]? = some i → s2.value i = some (x (k + 1)) := by
      intro k i hki
      have hi : s0.status i = .varying := (h0.mem_varying _).mp (List.mem_of_getElem? hki)
      have := l1 (i, x (k + 1)) ((mem_args _ _ _).mpr ⟨k, hki, rfl⟩)
      obtain ⟨hd, v, -, q2⟩ := hst.vary i hi
      rw [Inf.value, a3 i ((k1.status h0 i).mpr hi), this, q2]
      rfl
    have hread : s2.read e.cfg = fun j => if j ∈ s0.varying then x (s0.varying.idxOf j + 1) else s0.read e.cfg j := by
      funext j
      by_cases hj : j ∈ s0.varying
      · rw [if_pos hj]
        have := hval (s0.varying.idxOf j) j (by rw [List.getElem?_eq_getElem (List.idxOf_lt_length_iff.mpr hj), List.getElem_idxOf])
        unfold Inf.value at this
        simp only [Inf.read, this]
      · rw [if_neg hj]
        exact k2.calm.read j (fun h => hj ((h0.mem_varying j).mpr h))
    refine ⟨k2, ?_, fun v _ => ⟨hval, _, _, rfl, rfl, ?_⟩⟩
    · rw [hfn, hread, like_eq]
      rfl
    · rw [hread, like_eq]
      rfl
  · have hfn : e.fn s0 x = .error .paramRange := by unfold PostEnv.fn; rw [if_neg hr]
    have b1 := setVaryingLoop_bad (s0.varying.zip ((List.range s0.varying.length).map fun k => x (k + 1))) hst.calm.inv (by rw [fst_args]; exact h0.varying_nd) hvar
      (by
        by_contra hcon
        push Not at hcon
        apply hr
        intro k i lo hi h1 hb
        have hi' : s0.status i = .varying := (h0.mem_varying _).mp (List.mem_of_getElem? h1)
        exact hcon (i, x (k + 1)) ((mem_args _ _ _).mpr ⟨k, h1, rfl⟩) lo hi (by rw [hst.bounds hi']; exact hb))
    have k1 := setVaryingLoop_kin (c := e.cfg) h0 (s0.varying.zip ((List.range s0.varying.length).map fun k => x (k + 1))) hst
    rcases e1 : Inf.setVaryingLoop (s0.varying.zip ((List.range s0.varying.length).map fun k => x (k + 1))) st.inf with ⟨s1, r1⟩
    rw [e1] at b1 k1
    dsimp only at b1 k1
    subst b1
    dsimp only
    refine ⟨k1, hfn.symm, fun v hv => ?_⟩
    rw [hfn] at hv; cases hv

theorem obsInfo_spec (e : PostEnv) {s : Post} (h0 : Inv s.inf) {l p : ℝ} (hl : s.logLike = some l) (hp : s.logPrior = some p) (fuel : ℕ) (steps : Option Vec) (dlogp : ℝ) (n : ℕ) (junk : Junk) :
    (e.obsInfo fuel steps dlogp n junk s).map Prod.snd = e.intended fuel s.inf s.mode (steps.getD s.deltas) dlogp (l + p) n junk ∧
    ∀ s' r, e.obsInfo fuel steps dlogp n junk s = some (s', r) → Kin e.cfg s.inf s'.inf ∧
      (0 < s.inf.varying.length → ∀ info, r = .ok info → ∃ m, m s.inf.varying.length ≠ s.mode s.inf.varying.length ∧ Sits e s.inf s' m ∧
        (s.inf.varying.length = 1 → ∃ x dx d, dllsteps fuel (e.fn s.inf) 1 s.mode (steps.getD s.deltas) dlogp (some (l + p)) 20 (1 / 100) = some (x, dx, .ok d) ∧ m = put s.mode 1 (s.mode 1 - d 1))) := by
  have ha := acts e h0
  unfold PostEnv.obsInfo PostEnv.intended
  rw [hl, hp]
  dsimp only
  obtain ⟨a1, a2⟩ := dllstepsS_eq ha (fuel := fuel) (n := s.inf.varying.length) (mle := s.mode) (gs := steps.getD s.deltas) (dll := dlogp) (maxll := l + p) (maxiter := 20) (tol := 1 / 100) (st := s) (Kin.refl h0)
  rcases e1 : dllstepsS fuel e.logpFunc s.inf.varying.length s.mode (steps.getD s.deltas) dlogp (l + p) 20 (1 / 100) s with _ | ⟨s1, x, dx, err | d⟩
  · rw [e1] at a1
    rw [← a1]
    exact ⟨rfl, fun s' r h => by cases h⟩
  · rw [e1] at a1
    rw [← a1]
    refine ⟨rfl, fun s' r h => ?_⟩
    cases h
    exact ⟨a2 _ e1, fun _ info h => by cases h⟩
  · rw [e1] at a1
    rw [← a1]
    dsimp only [Option.map_some]
    obtain ⟨b1, b2, b3⟩ := obsinfoS_eq ha (n := s.inf.varying.length) (mle := s.mode) (deltas := d) (maxll := l + p) (niter := n) (junk := junk) (a2 _ e1)
    dsimp only at b1 b2 b3
    refine ⟨congrArg (fun z => some z.2) b1, fun s' r h => ?_⟩
    simp only [Option.some.injEq, Prod.mk.injEq] at h
    obtain ⟨rfl, rfl⟩ := h
    refine ⟨b2, fun hn info hi => ?_⟩
    obtain ⟨m, c1, c2, c3⟩ := b3 hn info ((congrArg Prod.snd b1).symm.trans hi)
    refine ⟨m, c1, c2, fun h1 => ⟨x, dx, d, ?_, c3 h1⟩⟩
    rw [h1] at a1
    exact a1.symm

theorem mode_value {s : Post} {k i : ℕ} (h : s.inf.varying[k]? = some i) {v : ℝ} (hv : s.inf.value i = some v) : s.mode (k + 1) = v := by
  unfold Inf.value at hv
  simp [Post.mode, h, hv]

theorem value_of_varying {s : Inf ℝ} (h0 : Inv s) {k i : ℕ} (h : s.varying[k]? = some i) : ∃ v, s.value i = some v := by
  have hi := (h0.mem_varying i).mp (List.mem_of_getElem? h)
  obtain ⟨hd, hh, hd'⟩ := h_of_status hi (by decide)
  obtain ⟨v, hv⟩ := Option.isSome_iff_exists.mp (h0.val i hd hh (by rw [hd']; decide))
  exact ⟨v, by simp [Inf.value, hh, hv]⟩

/-! ## Properties -/

/-- C98.  After any evaluation, `obs_info` returns or raises exactly what `dllsteps` followed by `obsinfo` give for the log of prior times likelihood as a function of the values of the varying parameters, at
their current values, with the last value computed as the maximum: setting parameters and caching leave no trace in the numbers. -/
theorem C98_same (e : PostEnv) {s : Post} (hr : Reachable e.cfg s.inf) {l p : ℝ} (hl : s.logLike = some l) (hp : s.logPrior = some p) (fuel : ℕ) (steps : Option Vec) (dlogp : ℝ) (n : ℕ) (junk : Junk) :
    (e.obsInfo fuel steps dlogp n junk s).map Prod.snd = e.intended fuel s.inf s.mode (steps.getD s.deltas) dlogp (l + p) n junk :=
  (obsInfo_spec e hr.inv hl hp fuel steps dlogp n junk).1

/-- C98.  Whether `obs_info` returns or raises, it changes nothing but the values of varying parameters: what the user reads for any other parameter is the same, and so are the lists of parameters, and the status, the
range and the scale of the varying ones. -/
theorem C98_rest (e : PostEnv) {s s' : Post} (hr : Reachable e.cfg s.inf) {fuel : ℕ} {steps : Option Vec} {dlogp : ℝ} {n : ℕ} {junk : Junk} {r : Except Stop Info}
    (h : e.obsInfo fuel steps dlogp n junk s = some (s', r)) :
    s'.inf.varying = s.inf.varying ∧ s'.inf.stepping = s.inf.stepping ∧ (∀ i ∉ s.inf.varying, s'.inf.read e.cfg i = s.inf.read e.cfg i) ∧ (∀ i ∈ s.inf.stepping, s'.inf.h i = s.inf.h i) ∧
    ∀ i ∈ s.inf.varying, ∃ hd v, s.inf.h i = some hd ∧ s'.inf.h i = some { hd with value := some v } := by
  have h0 := hr.inv
  have key : Kin e.cfg s.inf s'.inf := by
    rcases hl : s.logLike with _ | l
    · unfold PostEnv.obsInfo at h
      rw [hl] at h
      cases h; exact Kin.refl h0
    · rcases hp : s.logPrior with _ | p
      · unfold PostEnv.obsInfo at h
        rw [hl, hp] at h
        cases h; exact Kin.refl h0
      · exact ((obsInfo_spec e h0 hl hp fuel steps dlogp n junk).2 s' r h).1
  exact ⟨key.calm.varying, key.calm.stepping, fun i hi => key.calm.read i fun hh => hi ((h0.mem_varying i).mpr hh), fun i hi => key.calm.h i ((h0.mem_stepping i).mp hi),
    fun i hi => key.vary i ((h0.mem_varying i).mp hi)⟩

/-- C98.  Before the first evaluation `obs_info` raises `AttributeError` and changes nothing. -/
theorem C98_unevaluated (e : PostEnv) (s : Post) (h : s.logLike = none ∨ s.logPrior = none) (fuel : ℕ) (steps : Option Vec) (dlogp : ℝ) (n : ℕ) (junk : Junk) :
    e.obsInfo fuel steps dlogp n junk s = some (s, .error (.raised .attribute)) := by
  unfold PostEnv.obsInfo
  rcases h with h | h
  · rw [h]
  · rw [h]; cases s.logLike <;> rfl

theorem logp_spec (e : PostEnv) {s0 s : Post} (h0 : Inv s0.inf) {v : ℝ} (hv : e.logp s0 = (s, .ok v)) :
    Kin e.cfg s0.inf s.inf ∧ ∃ l p, s.logLike = some l ∧ s.logPrior = some p ∧ l + p = v ∧ v = e.post s.inf s.mode := by
  unfold PostEnv.logp PostEnv.score at hv
  have a2 := accessAll_calm e.cfg e.cfg.params h0
  have a3 := fun j => accessAll_h e.cfg e.cfg.params h0 j
  rcases e2 : Inf.accessAll e.cfg e.cfg.params s0.inf with ⟨s2, _ | r2⟩
  · rw [e2] at a2 a3 hv
    dsimp only at a2 a3 hv
    simp only [Prod.mk.injEq, Except.ok.injEq] at hv
    obtain ⟨rfl, rfl⟩ := hv
    refine ⟨(Kin.refl h0).of_h h0 a2 a3, _, _, rfl, rfl, rfl, ?_⟩
    have hread : (fun j => if j ∈ s2.varying then (Post.mode ⟨s2, some (e.like (s2.read e.cfg)), some (e.prior (s2.read e.cfg))⟩) (s2.varying.idxOf j + 1) else s2.read e.cfg j) = s2.read e.cfg := by
      funext j
      by_cases hj : j ∈ s2.varying
      · rw [if_pos hj]
        have hk : s2.varying[s2.varying.idxOf j]? = some j := by rw [List.getElem?_eq_getElem (List.idxOf_lt_length_iff.mpr hj), List.getElem_idxOf]
        obtain ⟨w, hw⟩ := value_of_varying a2.inv hk
        rw [mode_value (s := ⟨s2, _, _⟩) hk hw]
        unfold Inf.value at hw
        simp only [Inf.read, hw]
      · rw [if_neg hj]
    unfold PostEnv.post
    dsimp only
    rw [hread, like_eq]
  · rw [e2] at hv
    simp at hv

/-- C98, the part that holds: just after an evaluation (`logp`) at a mode about which the log of prior times likelihood is quadratic, with any symmetric Hessian of negative diagonal entries, `obs_info` returns minus that Hessian with errors
zero, for any number of varying parameters, any steps or scales that are not zero, any `dlogp > 0` and any number of extrapolations.  It suffices that it is quadratic, and the parameters in their ranges, as far
as the steps, the points where it has dropped by `dlogp`, and the standard deviations.  Missing: the parameters are not left as they were, and the evaluation has to be the last thing done. -/
theorem C98_exact_partial (e : PostEnv) {s0 s : Post} (hr : Reachable e.cfg s0.inf) {v : ℝ} (hv : e.logp s0 = (s, .ok v)) (steps : Option Vec) {H : ℕ → ℕ → ℝ} {dlogp : ℝ} (hdl : 0 < dlogp)
    (hs : ∀ a b, 1 ≤ a → a ≤ s.inf.varying.length → 1 ≤ b → b ≤ s.inf.varying.length → H a b = H b a) (hp : ∀ a, 1 ≤ a → a ≤ s.inf.varying.length → 0 < H a a)
    (hg : ∀ k, 1 ≤ k → k ≤ s.inf.varying.length → steps.getD s.deltas k ≠ 0)
    (hq : ∀ x : Vec, (∀ k, 1 ≤ k → k ≤ s.inf.varying.length → |x k - s.mode k| ≤ max |steps.getD s.deltas k| (max √(2 * dlogp / H k k) (1 / √(H k k)))) →
      InRange s.inf x ∧ e.post s.inf x = quad s.inf.varying.length v H s.mode x) (fuel n : ℕ) (junk : Junk) :
    ∃ s' info, e.obsInfo (fuel + 1) steps dlogp n junk s = some (s', .ok info) ∧
      ∀ i j, 1 ≤ i → i ≤ s.inf.varying.length → 1 ≤ j → j ≤ s.inf.varying.length → info.info i j = H i j ∧ info.ierr i j = 0 := by
  obtain ⟨hk, l, p, hl, hpr, hlp, hpost⟩ := logp_spec e hr.inv hv
  have hfn : ∀ x : Vec, (∀ k, 1 ≤ k → k ≤ s.inf.varying.length → |x k - s.mode k| ≤ max |steps.getD s.deltas k| (max √(2 * dlogp / H k k) (1 / √(H k k)))) →
      e.fn s.inf x = .ok (quad s.inf.varying.length v H s.mode x) := by
    intro x hx
    obtain ⟨h1, h2⟩ := hq x hx
    unfold PostEnv.fn
    rw [if_pos h1, h2]
  obtain ⟨r, d1, d2⟩ := C88_quadratic (f := e.fn s.inf) (n := s.inf.varying.length) (mle := s.mode) (gs := steps.getD s.deltas) (c := v) (dll := dlogp) (tol := 1 / 100) (H := fun k => H k k)
    (by
      rw [hfn s.mode fun k _ _ => by rw [sub_self, abs_zero]; exact le_max_of_le_left (abs_nonneg _)]
      simp [quad])
    hp
    (by
      intro k k1 k2 t ht
      rw [hfn, quad_one ⟨k1, k2⟩]
      · congr 1; ring
      intro j j1 j2
      by_cases hj : j = k
      · subst hj
        rw [put_self, add_sub_cancel_left]
        exact ht.trans (max_le_max le_rfl (le_max_left _ _))
      · rw [put_ne _ _ hj, sub_self, abs_zero]
        exact le_max_of_le_left (abs_nonneg _))
    hg hdl (by norm_num) (maxll := some v) (Or.inr rfl) fuel 19
  obtain ⟨info, o1, o2⟩ := C70_quadratic (lf := e.fn s.inf) (n := s.inf.varying.length) (c := v) (H := H) (mle := s.mode) (deltas := r)
    (by
      intro x hx
      apply hfn
      intro k k1 k2
      refine (hx k k1 k2).trans (le_max_of_le_right (max_le_max ?_ le_rfl))
      rw [← (d2 k k1 k2).1, Real.sqrt_sq_eq_abs])
    hs hp
    (by
      intro k k1 k2 h
      have := (d2 k k1 k2).2
      rw [h] at this
      simp at this)
    n junk (maxll := some v) (Or.inr rfl)
  have hsp := (obsInfo_spec e hk.calm.inv hl hpr (fuel + 1) steps dlogp n junk).1
  unfold PostEnv.intended at hsp
  rw [hlp, d1] at hsp
  dsimp only at hsp
  rw [o1] at hsp
  rcases eo : e.obsInfo (fuel + 1) steps dlogp n junk s with _ | ⟨s', q⟩
  · rw [eo] at hsp; cases hsp
  · rw [eo] at hsp
    simp only [Option.map_some, Option.some.injEq] at hsp
    exact ⟨s', info, by rw [← hsp], o2⟩

/-- C98 is false of the code whenever it succeeds: after every call of `obs_info` that returns, with at least one varying parameter, the last varying parameter has another value than before. -/
theorem C98_moved (e : PostEnv) {s s' : Post} (hr : Reachable e.cfg s.inf) {fuel : ℕ} {steps : Option Vec} {dlogp : ℝ} {n : ℕ} {junk : Junk} {info : Info}
    (h : e.obsInfo fuel steps dlogp n junk s = some (s', .ok info)) {i : ℕ} (hi : s.inf.varying.getLast? = some i) : s'.inf.value i ≠ s.inf.value i := by
  have h0 := hr.inv
  rcases hl : s.logLike with _ | l
  · rw [C98_unevaluated e s (Or.inl hl)] at h
    simp at h
  rcases hp : s.logPrior with _ | p
  · rw [C98_unevaluated e s (Or.inr hp)] at h
    simp at h
  have hn : 0 < s.inf.varying.length := by
    rcases hv : s.inf.varying with _ | ⟨a, t⟩
    · rw [hv] at hi; simp at hi
    · simp
  obtain ⟨m, m1, m2, -⟩ := ((obsInfo_spec e h0 hl hp fuel steps dlogp n junk).2 s' _ h).2 hn info rfl
  have hk : s.inf.varying[s.inf.varying.length - 1]? = some i := by rw [← List.getLast?_eq_getElem?]; exact hi
  obtain ⟨w, hw⟩ := value_of_varying h0 hk
  have q1 := m2.values _ i hk
  have q2 := mode_value hk hw
  rw [Nat.sub_add_cancel hn] at q1 q2
  rw [q1, hw, ← q2]
  simpa using m1

/-! ## A concrete inference -/

/-- An inference with one parameter `x`, the log likelihood `-x² / 2`, and a constant prior. -/
noncomputable def demo : PostEnv := ⟨⟨fun _ => 0, [0], fun _ _ => 0, fun _ => none⟩, [fun v => -(v 0) ^ 2 / 2], fun _ => 0⟩

/-- Its state when `x` varies from -10 to 10 with scale 1. -/
noncomputable def demoInf (v : ℝ) (ch : List ℕ) : Inf ℝ :=
  { h := fun i => if i = 0 then some { status := .varying, value := some v, bounds := some (-10, 10), delta := some 1 } else none, varying := [0], changes := ch }

theorem demo_reach {v : ℝ} (hv : -10 ≤ v ∧ v ≤ 10) : Inf.init.run demo.cfg [.vary 0 (some v) (some 1) (some (-10, 10))] = demoInf v [0, 0] := by
  have h1 : (-10 : ℝ) ≤ 10 := by norm_num
  simp [Inf.run, Inf.step, Inf.onHandler, Inf.access, Inf.init, Inf.fixH, Inf.setH, Inf.putValue, Inf.setStatus, Inf.onStatusChange, Inf.varyH, Inf.setValueH, Handler.withRange, Handler.range, ok, raise, Res.andThen, pyRemove, demo, demoInf, hv, h1]
  funext i
  by_cases hi : i = 0 <;> simp [hi, Function.update]

theorem demo_set {v w : ℝ} (ch : List ℕ) (hw : -10 ≤ w ∧ w ≤ 10) : (demoInf v ch).step demo.cfg (.setValue 0 w) = (demoInf w (0 :: ch), none) := by
  simp [Inf.step, Inf.onHandler, Inf.access, Inf.setH, Inf.putValue, Inf.setValueH, ok, raise, Res.andThen, demo, demoInf, hw]
  funext i
  by_cases hi : i = 0 <;> simp [hi, Function.update]

theorem demo_score (v : ℝ) (ch : List ℕ) (a b : Option ℝ) : demo.logp ⟨demoInf v ch, a, b⟩ = (⟨demoInf v ch, some (-v ^ 2 / 2), some 0⟩, .ok (-v ^ 2 / 2)) := by
  simp [PostEnv.logp, PostEnv.score, demo, demoInf, Inf.accessAll, Inf.access, ok, Res.andThen, PostEnv.like, Inf.read]

theorem demo_fn (v : ℝ) (ch : List ℕ) (x : Vec) (hx : |x 1| ≤ 10) : demo.fn (demoInf v ch) x = .ok (-(x 1) ^ 2 / 2) := by
  unfold PostEnv.fn
  rw [if_pos]
  · simp [PostEnv.post, demo, demoInf]
  · intro k i lo hi h1 h2
    have : k = 0 := by
      have := (List.getElem?_eq_some_iff.mp h1).1
      simp [demoInf] at this
      omega
    subst this
    simp [demoInf] at h1
    subst h1
    simp [demoInf, Inf.bounds] at h2
    obtain ⟨rfl, rfl⟩ := h2
    exact abs_le.mp hx

theorem demo_mode (v : ℝ) (ch : List ℕ) (a b : Option ℝ) : (Post.mode ⟨demoInf v ch, a, b⟩) 1 = v := by
  simp [Post.mode, demoInf]

theorem demo_deltas (v : ℝ) (ch : List ℕ) (a b : Option ℝ) : (Post.deltas ⟨demoInf v ch, a, b⟩) 1 = 1 := by
  simp [Post.deltas, demoInf]

theorem Kin.fn_eq {e : PostEnv} {s0 s : Inf ℝ} (h0 : Inv s0) (h : Kin e.cfg s0 s) : e.fn s = e.fn s0 := by
  have hr : ∀ x, InRange s x ↔ InRange s0 x := by
    intro x
    unfold InRange
    rw [h.calm.varying]
    refine forall_congr' fun k => forall_congr' fun i => ⟨fun a lo hi b c => ?_, fun a lo hi b c => ?_⟩
    · exact a lo hi b (by rw [h.bounds ((h0.mem_varying i).mp (List.mem_of_getElem? b))]; exact c)
    · exact a lo hi b (by rw [← h.bounds ((h0.mem_varying i).mp (List.mem_of_getElem? b))]; exact c)
  have hp : ∀ x, e.post s x = e.post s0 x := by
    intro x
    have : (fun j => if j ∈ s.varying then x (s.varying.idxOf j + 1) else s.read e.cfg j) = fun j => if j ∈ s0.varying then x (s0.varying.idxOf j + 1) else s0.read e.cfg j := by
      funext j
      rw [h.calm.varying]
      by_cases hj : j ∈ s0.varying
      · rw [if_pos hj, if_pos hj]
      · rw [if_neg hj, if_neg hj]
        exact h.calm.read j fun hh => hj ((h0.mem_varying j).mpr hh)
    unfold PostEnv.post
    dsimp only
    rw [this]
  funext x
  unfold PostEnv.fn
  by_cases hx : InRange s0 x
  · rw [if_pos ((hr x).mpr hx), if_pos hx, hp]
  · rw [if_neg fun h => hx ((hr x).mp h), if_neg hx]

theorem fn_ok {e : PostEnv} {s : Inf ℝ} {x : Vec} {v : ℝ} (h : e.fn s x = .ok v) : InRange s x ∧ e.post s x = v := by
  unfold PostEnv.fn at h
  split_ifs at h with hr
  cases h
  exact ⟨hr, rfl⟩

/-- C98 is false of the code.  (1) An inference with one parameter `x` that varies from 0 in (-10, 10) with scale 1, and log posterior `-x² / 2`: after `logp()`, `obs_info()` returns the right matrix and leaves `x = -√2`; called once more it
raises `ValueError` (the mode is not at the maximum).  (2) The same inference evaluated at 1 and then moved to the mode 0: `obs_info` takes the last value computed for the maximum and returns 3/4 instead of 1. -/
theorem C98_violated :
    (∃ s0 s : Post, Reachable demo.cfg s0.inf ∧ demo.logp s0 = (s, .ok 0) ∧ s.inf.read demo.cfg 0 = 0 ∧ ∀ (fuel n : ℕ) (junk : Junk), ∃ s' s'' info, demo.obsInfo (fuel + 1) none 1 n junk s = some (s', .ok info) ∧ info.info 1 1 = 1 ∧
      s'.inf.read demo.cfg 0 = -√2 ∧ demo.obsInfo (fuel + 1) none 1 n junk s' = some (s'', .error (.raised .value))) ∧
    ∃ s0 s s1 : Post, Reachable demo.cfg s0.inf ∧ demo.logp s0 = (s, .ok (-1 / 2)) ∧ s.inf.step demo.cfg (.setValue 0 0) = (s1.inf, none) ∧ s1.logLike = s.logLike ∧ s1.logPrior = s.logPrior ∧
      (∀ x : Vec, |x 1| ≤ 10 → demo.fn s1.inf x = .ok (-(x 1) ^ 2 / 2)) ∧ s1.mode 1 = 0 ∧
      ∀ (fuel : ℕ) (junk : Junk), ∃ s' info, demo.obsInfo (fuel + 1) (some fun _ => 2) (3 / 2) 0 junk s1 = some (s', .ok info) ∧ info.info 1 1 = 3 / 4 := by
  have hrt : √(2 : ℝ) ^ 2 = 2 := Real.sq_sqrt (by norm_num)
  have hr0 := Real.sqrt_nonneg (2 : ℝ)
  have hr2 : √(2 : ℝ) < 2 := by nlinarith
  have hr1 : 1 < √(2 : ℝ) := by nlinarith
  refine ⟨?_, ?_⟩
  · have hre : Reachable demo.cfg (demoInf 0 [0, 0]) := ⟨_, (demo_reach (by norm_num)).symm⟩
    have hsc : demo.logp ⟨demoInf 0 [0, 0], none, none⟩ = (⟨demoInf 0 [0, 0], some 0, some 0⟩, .ok 0) := by
      rw [demo_score]; norm_num
    refine ⟨⟨demoInf 0 [0, 0], none, none⟩, ⟨demoInf 0 [0, 0], some 0, some 0⟩, hre, hsc, by simp [Inf.read, demoInf], fun fuel n junk => ?_⟩
    have hmode : (Post.mode ⟨demoInf 0 [0, 0], some 0, some 0⟩) 1 = 0 := demo_mode _ _ _ _
    have hdel : (none : Option Vec).getD (Post.deltas ⟨demoInf 0 [0, 0], some 0, some 0⟩) 1 = 1 := demo_deltas 0 [0, 0] (some 0) (some 0)
    have hlen : (demoInf 0 [0, 0]).varying.length = 1 := rfl
    obtain ⟨s', info, o1, o2⟩ := C98_exact_partial demo (s0 := ⟨demoInf 0 [0, 0], none, none⟩) (s := ⟨demoInf 0 [0, 0], some 0, some 0⟩) hre hsc none (H := fun _ _ => 1) (dlogp := 1) (by norm_num)
      (fun _ _ _ _ _ _ => rfl) (fun _ _ _ => by norm_num) (fun k k1 k2 => by obtain rfl : k = 1 := (by rw [hlen] at k2; omega); rw [hdel]; norm_num)
      (by
        intro x hx
        have := hx 1 le_rfl le_rfl
        rw [hmode, hdel, sub_zero, Real.sqrt_one] at this
        have h10 : |x 1| ≤ 10 := this.trans (max_le (by norm_num) (max_le (by rw [show (2 * 1 / 1 : ℝ) = 2 by norm_num]; linarith) (by norm_num)))
        obtain ⟨f1, f2⟩ := fn_ok (demo_fn 0 [0, 0] x h10)
        refine ⟨f1, f2.trans ?_⟩
        rw [hlen, quad]
        simp only [Finset.Icc_self, Finset.sum_singleton, hmode]
        ring) fuel n junk
    obtain ⟨k1, m, -, m2, m3⟩ := (obsInfo_spec demo (s := ⟨demoInf 0 [0, 0], some 0, some 0⟩) hre.inv rfl rfl (fuel + 1) none 1 n junk).2 s' _ o1 |>.imp id fun h => h (by rw [hlen]; norm_num) info rfl
    obtain ⟨x, dx, d, hd, rfl⟩ := m3 hlen
    obtain ⟨r, q1, q2⟩ := C88_quadratic (f := demo.fn (demoInf 0 [0, 0])) (n := 1) (mle := Post.mode ⟨demoInf 0 [0, 0], some 0, some 0⟩) (gs := (none : Option Vec).getD (Post.deltas ⟨demoInf 0 [0, 0], some 0, some 0⟩)) (c := 0) (dll := 1) (tol := 1 / 100)
      (H := fun _ => 1) (by rw [demo_fn _ _ _ (by rw [hmode]; norm_num), hmode]; norm_num) (fun _ _ _ => by norm_num)
      (by
        intro k k1 k2 t ht
        obtain rfl : k = 1 := by omega
        rw [hdel] at ht
        have h10 : |t| ≤ 10 := ht.trans (max_le (by norm_num) (by rw [show (2 * 1 / 1 : ℝ) = 2 by norm_num]; linarith))
        rw [demo_fn _ _ _ (by rw [put_self, hmode, zero_add]; exact h10), put_self, hmode]
        congr 1; ring)
      (fun k k1 k2 => by obtain rfl : k = 1 := (by omega); rw [hdel]; norm_num) (by norm_num) (by norm_num) (maxll := some (0 + 0)) (Or.inr (by norm_num)) fuel 19
    have hdr : d = r := by
      have := hd.symm.trans q1
      simp only [Option.some.injEq, Prod.mk.injEq, Except.ok.injEq] at this
      exact this.2.2
    subst hdr
    obtain ⟨q2, q3⟩ := q2 1 le_rfl le_rfl
    rw [hdel, mul_one] at q3
    have hd1 : d 1 = √2 := by
      rw [show (2 * 1 / 1 : ℝ) = 2 by norm_num] at q2
      rw [← q2, Real.sqrt_sq q3.le]
    have hval : s'.inf.value 0 = some (-√2) := by
      have := m2.values 0 0 rfl
      rw [put_self, hmode, hd1] at this
      rw [this]; congr 1; ring
    obtain ⟨l, p, hl, hp, hlp⟩ := m2.last
    have hlp' : l + p = -1 := by
      rw [hlp, (fn_ok (demo_fn 0 [0, 0] _ (by rw [put_self, hmode, hd1, zero_sub, abs_neg, abs_of_nonneg hr0]; linarith))).2, put_self, hmode, hd1]
      rw [zero_sub, neg_sq, hrt]; norm_num
    have hV : s'.inf.varying = [0] := k1.calm.varying
    have hmode' : s'.mode 1 = -√2 := mode_value (k := 0) (by rw [hV]; rfl) hval
    have hdel' : s'.deltas 1 = 1 := by
      obtain ⟨hd, v, w1, w2⟩ := k1.vary 0 (by rfl)
      simp [demoInf] at w1
      subst w1
      simp [Post.deltas, hV, w2]
    have hsp := (obsInfo_spec demo k1.calm.inv hl hp (fuel + 1) none 1 n junk).1
    rw [PostEnv.intended, hV] at hsp
    have hds : dllsteps (fuel + 1) (demo.fn s'.inf) 1 s'.mode s'.deltas 1 (some (l + p)) 20 (1 / 100) = some (put s'.mode 1 (-√2 + 1), s'.deltas, .error (.raised .value)) := by
      have hput : put s'.mode 1 (s'.mode 1 + 1 * s'.deltas 1) = put s'.mode 1 (-√2 + 1) := by rw [hmode', hdel', mul_one]
      rw [dllsteps, Option.elim_some]
      dsimp only
      rw [scales]
      rw [guess]
      rw [hput, k1.fn_eq hre.inv, demo_fn 0 [0, 0] _ (by rw [put_self, abs_le]; constructor <;> linarith), put_self]
      dsimp only
      rw [if_pos (by rw [hlp']; nlinarith)]
    rw [Option.getD_none, show ([0] : List ℕ).length = 1 from rfl, hds] at hsp
    have hsp' : _ = some (Except.error (Stop.raised Err.value)) := hsp
    rcases eo : demo.obsInfo (fuel + 1) none 1 n junk s' with _ | ⟨s'', q⟩
    · rw [eo] at hsp'; cases hsp'
    · rw [eo] at hsp'
      simp only [Option.map_some, Option.some.injEq] at hsp'
      refine ⟨s', s'', info, o1, (o2 1 1 le_rfl le_rfl le_rfl le_rfl).1, ?_, by rw [eo, hsp']⟩
      unfold Inf.value at hval
      simp [Inf.read, hval]
  · have hre : Reachable demo.cfg (demoInf 1 [0, 0]) := ⟨_, (demo_reach (by norm_num)).symm⟩
    have hset := demo_set (v := 1) (w := 0) [0, 0] (by norm_num)
    have hre1 : Reachable demo.cfg (demoInf 0 [0, 0, 0]) := by
      refine ⟨[.vary 0 (some 1) (some 1) (some (-10, 10)), .setValue 0 0], ?_⟩
      have := demo_reach (v := 1) (by norm_num)
      simp only [Inf.run, List.foldl_cons, List.foldl_nil] at this ⊢
      rw [this, hset]
    have hsc : demo.logp ⟨demoInf 1 [0, 0], none, none⟩ = (⟨demoInf 1 [0, 0], some (-1 / 2), some 0⟩, .ok (-1 / 2)) := by
      rw [demo_score]; norm_num
    refine ⟨⟨demoInf 1 [0, 0], none, none⟩, ⟨demoInf 1 [0, 0], some (-1 / 2), some 0⟩, ⟨demoInf 0 [0, 0, 0], some (-1 / 2), some 0⟩, hre, hsc, hset, rfl, rfl, demo_fn _ _, demo_mode _ _ _ _, fun fuel junk => ?_⟩
    have hmode : (Post.mode ⟨demoInf 0 [0, 0, 0], some (-1 / 2), some 0⟩) 1 = 0 := demo_mode _ _ _ _
    have hsp := (obsInfo_spec demo (s := ⟨demoInf 0 [0, 0, 0], some (-1 / 2), some 0⟩) hre1.inv rfl rfl (fuel + 1) (some fun _ => 2) (3 / 2) 0 junk).1
    rw [PostEnv.intended, Option.getD_some] at hsp
    generalize hmo : (Post.mode ⟨demoInf 0 [0, 0, 0], some (-1 / 2), some 0⟩) = mo at hsp hmode
    have hlen : (demoInf 0 [0, 0, 0]).varying.length = 1 := rfl
    have hds : dllsteps (fuel + 1) (demo.fn (demoInf 0 [0, 0, 0])) 1 mo (fun _ => 2) (3 / 2) (some (-1 / 2 + 0)) 20 (1 / 100) = some (mo, put (fun _ => 2) 1 2, .ok (put (fun _ => 2) 1 2)) := by
      have hf2 : ∀ y : Vec, demo.fn (demoInf 0 [0, 0, 0]) (put y 1 2) = .ok (-2) := by
        intro y
        rw [demo_fn 0 [0, 0, 0] _ (by rw [put_self]; norm_num), put_self]
        norm_num
      rw [dllsteps, Option.elim_some]
      dsimp only
      rw [scales]
      rw [guess]
      rw [show mo 1 + 1 * 2 = 2 by rw [hmode]; norm_num, hf2]
      dsimp only
      rw [if_neg (by norm_num), if_neg (by norm_num)]
      dsimp only
      rw [if_neg (by norm_num), show (3 / 2 / (-1 / 2 + 0 - -2) : ℝ) = 1 by norm_num, Real.sqrt_one, show mo 1 + 1 * 2 * 1 = 2 by rw [hmode]; norm_num, put_put, newton, hf2]
      dsimp only
      rw [if_neg (by norm_num), if_neg (by norm_num)]
      dsimp only
      rw [scales, put_put, put_get, put_self, hmode, sub_zero]
    have hoi : ∃ info, (obsinfo (demo.fn (demoInf 0 [0, 0, 0])) 1 mo (put (fun _ => 2) 1 2) (some (-1 / 2 + 0)) 0 junk).2 = .ok info ∧ info.info 1 1 = 3 / 4 := by
      have hf : ∀ y : Vec, ∀ t : ℝ, t = 2 ∨ t = -2 → demo.fn (demoInf 0 [0, 0, 0]) (put y 1 t) = .ok (-2) := by
        rintro y t (rfl | rfl)
        all_goals
          rw [demo_fn 0 [0, 0, 0] _ (by rw [put_self]; norm_num), put_self]
          norm_num
      rw [obsinfo, Option.elim_some]
      dsimp only
      rw [ninfol, diag]
      dsimp only
      rw [diffs]
      dsimp only
      rw [put_self, hf _ _ (Or.inl (by rw [hmode]; norm_num))]
      dsimp only
      rw [hf _ _ (Or.inr (by rw [hmode]; norm_num))]
      dsimp only
      rw [if_neg (by norm_num), diffs]
      dsimp only
      rw [diag]
      dsimp only
      rw [Nat.sub_self, pairs]
      refine ⟨_, rfl, ?_⟩
      dsimp only
      rw [put2_self]
      simp only [extrap]
      rw [if_neg (by norm_num), put_self]
      norm_num
    obtain ⟨info, i1, i2⟩ := hoi
    have hsp' := hsp.trans (by show _ = some (Except.ok info); rw [hlen, hds]; dsimp only; rw [i1])
    rcases eo : demo.obsInfo (fuel + 1) (some fun _ => 2) (3 / 2) 0 junk ⟨demoInf 0 [0, 0, 0], some (-1 / 2), some 0⟩ with _ | ⟨s'', q⟩
    · rw [eo] at hsp'; cases hsp'
    · rw [eo] at hsp'
      simp only [Option.map_some, Option.some.injEq] at hsp'
      exact ⟨s'', info, by rw [hsp'], i2⟩

end Verif.Pie
