import Verif.Pie.Registry
import Mathlib.Analysis.SpecialFunctions.Pow.Real

/-!
# C213: parameters known by name
-/

noncomputable section

namespace Verif.Pie.Registry

/-! ## Specification -/

/-- `j` calls of `nextStep` about `n`. -/
def steps (n : String) (j : ℕ) : List Op := List.replicate j (.nextStep n)

/-- The last status a dependent has heard of a parameter, if it started with the knowledge `s`. -/
def heard (d : ℕ) (n : String) (s : Status) : List Told → Status
  | [] => s
  | t :: ts => heard d n (if t.dependent = d ∧ t.name = n then t.status else s) ts

/-! ## Lemmas -/

theorem set_all (w : World) (n : String) (p : Prm) : (w.set n p).all n = some p := by simp [World.set]
theorem set_other (w : World) {n m : String} (h : m ≠ n) (p : Prm) : (w.set n p).all m = w.all m := by simp [World.set, h]
theorem setStatus_all (w : World) (n : String) (p : Prm) (st : Status) : (w.setStatus n p st).all n = some { p with status := st } := by
  simp [World.setStatus, set_all]
theorem setStatus_other (w : World) {n m : String} (h : m ≠ n) (p : Prm) (st : Status) : (w.setStatus n p st).all m = w.all m := by
  simp [World.setStatus, set_other w h]

theorem op_other (w : World) (o : Op) (m : String) (h : m ≠ o.name) : (w.op o).1.all m = w.all m := by
  cases o <;> simp only [Op.name] at h <;> simp only [World.op, World.on, World.make, World.setValue, World.assign, World.linStep, World.logStep, World.nextStep, World.firstStep, World.vary, World.unboundedSet, raise, ok] <;>
    repeat' (first | rfl | (simp only [set_other _ h, setStatus_other _ h]; done) | split)

theorem run_append (w : World) (a b : List Op) : w.run (a ++ b) = (w.run a).run b := by
  induction a generalizing w with
  | nil => rfl
  | cons o os ih => exact ih _

theorem run_snoc (w : World) (n : String) (j : ℕ) : w.run (steps n (j + 1)) = ((w.run (steps n j)).op (.nextStep n)).1 := by
  rw [steps, List.replicate_succ', run_append]; rfl

theorem heard_append (d : ℕ) (n : String) (s : Status) (a b : List Told) : heard d n s (a ++ b) = heard d n (heard d n s a) b := by
  induction a generalizing s with
  | nil => rfl
  | cons t ts ih => exact ih _

theorem heard_map (d : ℕ) (n : String) (s st : Status) (ds : List ℕ) (h : d ∈ ds ∨ s = st) : heard d n s (ds.map fun d => ⟨d, n, st⟩) = st := by
  induction ds generalizing s with
  | nil => simpa [heard] using h
  | cons e es ih =>
    simp only [List.map_cons, heard, and_true]
    apply ih
    by_cases he : e = d
    · right; simp [he]
    · rw [if_neg he]
      rcases h with h | h
      · left; simpa [Ne.symm he] using h
      · right; exact h

theorem heard_map_other (d : ℕ) {n m : String} (h : m ≠ n) (s st : Status) (ds : List ℕ) : heard d n s (ds.map fun d => ⟨d, m, st⟩) = s := by
  induction ds generalizing s with
  | nil => rfl
  | cons e es ih => simp only [List.map_cons, heard, h, and_false, if_false]; exact ih s

/-- What a call does to the status a dependent of `n` knows. -/
structure Keeps (w w' : World) (d : ℕ) (n : String) : Prop where
  intro ::
  prop : ∀ p, w.all n = some p → d ∈ p.dependents → ∃ p' l, w'.all n = some p' ∧ d ∈ p'.dependents ∧ w'.log = w.log ++ l ∧ heard d n p.status l = p'.status

theorem Keeps.refl (w : World) (d : ℕ) (n : String) : Keeps w w d n := ⟨fun p hp hd => ⟨p, [], hp, hd, by simp, rfl⟩⟩

theorem Keeps.trans {w w' w'' : World} {d : ℕ} {n : String} (h : Keeps w w' d n) (h' : Keeps w' w'' d n) : Keeps w w'' d n := by
  refine ⟨fun p hp hd => ?_⟩
  obtain ⟨p', l, h1, h2, h3, h4⟩ := h.prop p hp hd
  obtain ⟨p'', l', g1, g2, g3, g4⟩ := h'.prop p' h1 h2
  exact ⟨p'', l ++ l', g1, g2, by rw [g3, h3, List.append_assoc], by rw [heard_append, h4, g4]⟩

theorem keeps_set (w : World) (d : ℕ) (n m : String) (q p' : Prm) (hq : w.all m = some q) (h1 : p'.status = q.status) (h2 : m = n → d ∈ q.dependents → d ∈ p'.dependents) :
    Keeps w (w.set m p') d n := by
  refine ⟨fun p hp hd => ?_⟩
  by_cases hm : m = n
  · subst hm
    rw [hp] at hq; cases hq
    exact ⟨p', [], set_all .., h2 rfl hd, by simp [World.set], h1.symm⟩
  · exact ⟨p, [], by rw [set_other _ (Ne.symm hm), hp], hd, by simp [World.set], rfl⟩

theorem keeps_setStatus (w : World) (d : ℕ) (n m : String) (q p' : Prm) (st : Status) (hq : w.all m = some q) (h2 : p'.dependents = q.dependents) :
    Keeps w (w.setStatus m p' st) d n := by
  refine ⟨fun p hp hd => ?_⟩
  by_cases hm : m = n
  · subst hm
    rw [hp] at hq; cases hq
    exact ⟨_, _, setStatus_all .., by simpa [h2] using hd, rfl, heard_map _ _ _ _ _ (Or.inl (by simpa [h2] using hd))⟩
  · exact ⟨p, _, by rw [setStatus_other _ (Ne.symm hm), hp], hd, rfl, heard_map_other _ hm _ _ _⟩

theorem keeps_op (w : World) (d : ℕ) (n : String) (o : Op) (ho : o ≠ .delDependent n d) : Keeps w (w.op o).1 d n := by
  cases o with
  | make m de =>
    simp only [World.op, World.make]
    rcases hm : w.all m with _ | q
    · refine ⟨fun p hp hd => ⟨p, [], ?_, hd, by simp [ok, World.set], rfl⟩⟩
      have : n ≠ m := by rintro rfl; rw [hm] at hp; cases hp
      simp only [ok, set_other _ this, hp]
    · simp only; split <;> exact Keeps.refl ..
  | addDependent m e =>
    simp only [World.op, World.on]
    rcases hm : w.all m with _ | q
    · exact Keeps.refl ..
    · simp only; split
      · exact Keeps.refl ..
      · exact keeps_set w d n m q _ hm rfl fun _ h => by simp [h]
  | delDependent m e =>
    simp only [World.op, World.on]
    rcases hm : w.all m with _ | q
    · exact Keeps.refl ..
    · refine keeps_set w d n m q _ hm rfl fun hmn h => ?_
      have : d ≠ e := by rintro rfl; exact ho (by rw [hmn])
      exact (List.mem_erase_of_ne this).mpr h
  | setValue m v =>
    simp only [World.op, World.on]
    rcases hm : w.all m with _ | q
    · exact Keeps.refl ..
    · simp only [World.setValue]
      split <;> exact keeps_set w d n m q _ hm rfl fun _ h => h
  | assign m v =>
    simp only [World.op, World.on]
    rcases hm : w.all m with _ | q
    · exact Keeps.refl ..
    · simp only [World.assign]
      split
      · split
        · exact keeps_setStatus w d n m q _ _ hm rfl
        · exact Keeps.refl ..
      · exact keeps_setStatus w d n m q _ _ hm rfl
  | range m a b =>
    simp only [World.op, World.on]
    rcases hm : w.all m with _ | q
    · exact Keeps.refl ..
    · exact keeps_set w d n m q _ hm rfl fun _ h => h
  | linStep m lo hi k =>
    simp only [World.op, World.on]
    rcases hm : w.all m with _ | q
    · exact Keeps.refl ..
    · simp only [World.linStep]
      split <;> exact (keeps_setStatus w d n m q q .stepping hm rfl).trans (keeps_set _ d n m _ _ (setStatus_all ..) rfl fun _ h => h)
  | logStep m lo hi k =>
    simp only [World.op, World.on]
    rcases hm : w.all m with _ | q
    · exact Keeps.refl ..
    · simp only [World.logStep]
      split
      · exact Keeps.refl ..
      · split <;> exact (keeps_setStatus w d n m q q .stepping hm rfl).trans (keeps_set _ d n m _ _ (setStatus_all ..) rfl fun _ h => h)
  | nextStep m =>
    simp only [World.op, World.on]
    rcases hm : w.all m with _ | q
    · exact Keeps.refl ..
    · simp only [World.nextStep]
      split
      · exact Keeps.refl ..
      · split
        · split
          · exact keeps_set w d n m q _ hm rfl fun _ h => h
          · split
            · exact keeps_set w d n m q _ hm rfl fun _ h => h
            · split <;> exact keeps_set w d n m q _ hm rfl fun _ h => h
        · exact Keeps.refl ..
  | firstStep m =>
    simp only [World.op, World.on]
    rcases hm : w.all m with _ | q
    · exact Keeps.refl ..
    · simp only [World.firstStep]
      split
      · exact Keeps.refl ..
      · split
        · exact keeps_set w d n m q _ hm rfl fun _ h => h
        · exact Keeps.refl ..
  | vary m s de r =>
    simp only [World.op, World.on]
    rcases hm : w.all m with _ | q
    · exact Keeps.refl ..
    · simp only [World.vary]
      split
      · exact Keeps.refl ..
      · split
        · exact keeps_set w d n m q _ hm rfl fun _ h => h
        · split
          · exact keeps_set w d n m q _ hm rfl fun _ h => h
          · exact keeps_setStatus w d n m q _ _ hm rfl
          · exact keeps_setStatus w d n m q _ _ hm rfl
  | unboundedSet m u =>
    simp only [World.op, World.on]
    rcases hm : w.all m with _ | q
    · exact Keeps.refl ..
    · simp only [World.unboundedSet]
      split
      · exact Keeps.refl ..
      · split
        · exact Keeps.refl ..
        · exact keeps_set w d n m q _ hm rfl fun _ h => h

/-! ## Theorems -/

/-- **C213, names.**  Calls about other names never change a parameter; asking again for a name that is known returns the parameter as it is, and asking for it with arguments is refused. -/
theorem C213_names (w : World) (n : String) :
    (∀ os : List Op, (∀ o ∈ os, o.name ≠ n) → (w.run os).all n = w.all n) ∧
    (w.all n ≠ none → w.op (.make n none) = (w, none) ∧ ∀ d, w.op (.make n (some d)) = (w, some .runtime)) := by
  constructor
  · intro os
    induction os generalizing w with
    | nil => intro _; rfl
    | cons o os ih =>
      intro h
      rw [World.run, ih _ fun o' ho' => h o' (List.mem_cons_of_mem _ ho'), op_other]
      exact Ne.symm (h o List.mem_cons_self)
  · intro h
    rcases hn : w.all n with _ | p
    · exact absurd hn h
    · simp [World.op, World.make, hn, ok, raise]

/-- **C213, assignment.**  A value that is accepted is the value read afterwards, and lies in the range if one was given; a value that is refused leaves everything as it was. -/
theorem C213_set (w w' : World) (n : String) (v : ℝ) (e : Option Err) (h : w.op (.assign n v) = (w', e)) :
    (e = none → w'.value n = .ok (some v) ∧ ∃ p, w'.all n = some p ∧ p.status = .fixed ∧ ∀ lo hi, p.bounds = some (lo, hi) → lo ≤ v ∧ v ≤ hi) ∧ (e ≠ none → w' = w) := by
  simp only [World.op, World.on] at h
  rcases hn : w.all n with _ | p <;> simp only [hn] at h
  · cases h; simp
  · simp only [World.assign] at h
    split at h
    · rename_i lo hi hb
      split at h
      · cases h
        refine ⟨fun _ => ⟨by simp [World.value, setStatus_all], _, setStatus_all .., rfl, ?_⟩, by simp⟩
        intro a b hab
        simp only [hb, Option.some.injEq, Prod.mk.injEq] at hab
        obtain ⟨rfl, rfl⟩ := hab
        assumption
      · cases h; simp
    · rename_i hb
      cases h
      exact ⟨fun _ => ⟨by simp [World.value, setStatus_all], _, setStatus_all .., rfl, by simp [hb]⟩, by simp⟩

/-- **C213, announcements of the status.**  A dependent that knows the status when it is added knows it after any calls that do not remove it, from what it was told since. -/
theorem C213_told (w : World) (n : String) (d : ℕ) (p : Prm) (hp : w.all n = some p) (hd : d ∈ p.dependents) (os : List Op) (ho : ∀ o ∈ os, o ≠ .delDependent n d) :
    ∃ p' l, (w.run os).all n = some p' ∧ (w.run os).log = w.log ++ l ∧ heard d n p.status l = p'.status := by
  have : Keeps w (w.run os) d n := by
    clear hp hd
    induction os generalizing w with
    | nil => exact Keeps.refl ..
    | cons o os ih => exact (keeps_op w d n o (ho o List.mem_cons_self)).trans (ih _ fun o' ho' => ho o' (List.mem_cons_of_mem _ ho'))
  obtain ⟨p', l, h1, _, h3, h4⟩ := this.prop p hp hd
  exact ⟨p', l, h1, h3, h4⟩

/-- After an accepted request to step and `j` further steps. -/
theorem lin_state (w : World) (n : String) (lo hi : ℝ) (k : ℕ) (hk : 2 ≤ k) (hn : w.all n ≠ none) (j : ℕ) (hj : j < k) :
    ∃ p, ((w.op (.linStep n lo hi k)).1.run (steps n j)).all n = some p ∧ p.status = .stepping ∧ p.stepInfo = some (.lin, lo, hi, k) ∧ p.stepNum = some j ∧
      p.delta = some ((hi - lo) / (k - 1)) ∧ p.value = some (lo + j * ((hi - lo) / (k - 1))) := by
  induction j with
  | zero =>
    rcases h : w.all n with _ | q
    · exact absurd h hn
    · have h1 : k ≠ 1 := by omega
      simp [steps, World.run, World.op, World.on, h, World.linStep, h1, ok, set_all]
  | succ j ih =>
    obtain ⟨p, h1, h2, h3, h4, h5, h6⟩ := ih (by omega)
    rw [run_snoc]
    have hk1 : ((k : ℝ) - 1) ≠ 0 := by
      have : (2 : ℝ) ≤ k := by exact_mod_cast hk
      linarith
    generalize (w.op (.linStep n lo hi k)).1.run (steps n j) = w1 at h1 ⊢
    simp only [World.op, World.on, h1, World.nextStep, h2, h3, h4, ne_eq, not_true, if_false, h5, h6]
    rw [if_neg (by omega)]
    split
    · rename_i e
      refine ⟨_, set_all .., rfl, by simp [h3], rfl, by simp [h5], ?_⟩
      have : ((j + 1 : ℕ) : ℝ) = (k : ℝ) - 1 := by rw [e, Nat.cast_sub (by omega)]; simp
      simp only [this]
      congr 1
      field_simp; ring
    · refine ⟨_, set_all .., rfl, by simp [h3], rfl, by simp [h5], ?_⟩
      simp only [Nat.cast_add, Nat.cast_one]
      congr 1; ring

/-- **C213, linear steps.**  A parameter that steps from `lo` to `hi` in `k ≥ 2` steps has, after `j` calls for the next step, the value `lo + j (hi - lo) / (k - 1)`, the last being `hi`; the call after the last step is refused. -/
theorem C213_linear (w : World) (n : String) (lo hi : ℝ) (k : ℕ) (hk : 2 ≤ k) (hn : w.all n ≠ none) :
    (w.op (.linStep n lo hi k)).2 = none ∧
    (∀ j < k, ((w.op (.linStep n lo hi k)).1.run (steps n j)).value n = .ok (some (lo + j * ((hi - lo) / (k - 1))))) ∧
    ((w.op (.linStep n lo hi k)).1.run (steps n (k - 1))).value n = .ok (some hi) ∧
    (∀ j < k, (((w.op (.linStep n lo hi k)).1.run (steps n j)).op (.nextStep n)).2 = if j + 1 < k then none else some .runtime) := by
  have key : ∀ j < k, ((w.op (.linStep n lo hi k)).1.run (steps n j)).value n = .ok (some (lo + j * ((hi - lo) / (k - 1)))) := by
    intro j hj
    obtain ⟨p, h1, h2, _, _, _, h6⟩ := lin_state w n lo hi k hk hn j hj
    simp [World.value, h1, h2, h6]
  refine ⟨?_, key, ?_, ?_⟩
  · rcases h : w.all n with _ | q
    · exact absurd h hn
    · have h1 : k ≠ 1 := by omega
      simp [World.op, World.on, h, World.linStep, h1, ok]
  · rw [key (k - 1) (by omega)]
    have hk1 : ((k : ℝ) - 1) ≠ 0 := by
      have : (2 : ℝ) ≤ k := by exact_mod_cast hk
      linarith
    have : ((k - 1 : ℕ) : ℝ) = (k : ℝ) - 1 := by rw [Nat.cast_sub (by omega)]; simp
    rw [this]
    congr 2
    field_simp; ring
  · intro j hj
    obtain ⟨p, h1, h2, h3, h4, h5, h6⟩ := lin_state w n lo hi k hk hn j hj
    generalize (w.op (.linStep n lo hi k)).1.run (steps n j) = w1 at h1 ⊢
    simp only [World.op, World.on, h1, World.nextStep, h2, h3, h4, ne_eq, not_true, if_false, h5, h6]
    by_cases hl : j + 1 < k
    · rw [if_neg (by omega), if_pos hl]
      split <;> rfl
    · rw [if_pos (by omega), if_neg hl]; rfl

theorem fac_pow (lo hi : ℝ) (h : 0 < lo * hi) (k : ℕ) (hk : 2 ≤ k) : lo * Real.exp (Real.log (hi / lo) / (k - 1)) ^ (k - 1) = hi := by
  have hk1 : ((k : ℝ) - 1) ≠ 0 := by
    have : (2 : ℝ) ≤ k := by exact_mod_cast hk
    linarith
  have hlo : lo ≠ 0 := by rintro rfl; simp at h
  have hpos : 0 < hi / lo := by
    have : hi / lo = lo * hi / lo ^ 2 := by field_simp
    rw [this]; positivity
  rw [← Real.exp_nat_mul, Nat.cast_sub (by omega), Nat.cast_one, mul_div_cancel₀ _ hk1, Real.exp_log hpos]
  field_simp

theorem log_state (w : World) (n : String) (lo hi : ℝ) (h : 0 < lo * hi) (k : ℕ) (hk : 2 ≤ k) (hn : w.all n ≠ none) (j : ℕ) (hj : j < k) :
    ∃ p, ((w.op (.logStep n lo hi k)).1.run (steps n j)).all n = some p ∧ p.status = .stepping ∧ p.stepInfo = some (.log, lo, hi, k) ∧ p.stepNum = some j ∧
      p.fac = some (Real.exp (Real.log (hi / lo) / (k - 1))) ∧ p.value = some (lo * Real.exp (Real.log (hi / lo) / (k - 1)) ^ j) := by
  induction j with
  | zero =>
    rcases h' : w.all n with _ | q
    · exact absurd h' hn
    · have h1 : k ≠ 1 := by omega
      simp [steps, World.run, World.op, World.on, h', World.logStep, h1, not_le.mpr h, ok, set_all]
  | succ j ih =>
    obtain ⟨p, h1, h2, h3, h4, h5, h6⟩ := ih (by omega)
    rw [run_snoc]
    generalize (w.op (.logStep n lo hi k)).1.run (steps n j) = w1 at h1 ⊢
    simp only [World.op, World.on, h1, World.nextStep, h2, h3, h4, ne_eq, not_true, if_false, h5, h6]
    rw [if_neg (by omega)]
    split
    · rename_i e
      refine ⟨_, set_all .., rfl, by simp [h3], rfl, by simp [h5], ?_⟩
      simp only [e, fac_pow lo hi h k hk]
    · refine ⟨_, set_all .., rfl, by simp [h3], rfl, by simp [h5], ?_⟩
      simp only [pow_succ, mul_assoc]

/-- **C213, logarithmic steps.**  For limits of the same sign the value after `j` calls is `lo (hi / lo) ^ (j / (k - 1))`, the last being `hi`; the call after the last step is refused; limits that are not of the same sign are refused and change nothing. -/
theorem C213_log (w : World) (n : String) (lo hi : ℝ) (k : ℕ) (hk : 2 ≤ k) (hn : w.all n ≠ none) :
    (lo * hi ≤ 0 → w.op (.logStep n lo hi k) = (w, some .value)) ∧
    (0 < lo * hi → (w.op (.logStep n lo hi k)).2 = none ∧
      (∀ j < k, ((w.op (.logStep n lo hi k)).1.run (steps n j)).value n = .ok (some (lo * (hi / lo) ^ ((j : ℝ) / ((k : ℝ) - 1))))) ∧
      ((w.op (.logStep n lo hi k)).1.run (steps n (k - 1))).value n = .ok (some hi) ∧
      (∀ j < k, (((w.op (.logStep n lo hi k)).1.run (steps n j)).op (.nextStep n)).2 = if j + 1 < k then none else some .runtime)) := by
  refine ⟨fun h => ?_, fun h => ⟨?_, fun j hj => ?_, ?_, fun j hj => ?_⟩⟩
  · rcases h' : w.all n with _ | q
    · exact absurd h' hn
    · simp [World.op, World.on, h', World.logStep, h, raise]
  · rcases h' : w.all n with _ | q
    · exact absurd h' hn
    · have h1 : k ≠ 1 := by omega
      simp [World.op, World.on, h', World.logStep, h1, not_le.mpr h, ok]
  · obtain ⟨p, h1, h2, _, _, _, h6⟩ := log_state w n lo hi h k hk hn j hj
    have hlo : lo ≠ 0 := by rintro rfl; simp at h
    have hpos : 0 < hi / lo := by
      have : hi / lo = lo * hi / lo ^ 2 := by field_simp
      rw [this]; positivity
    simp only [World.value, h1, h2, h6, reduceCtorEq, if_false]
    rw [← Real.exp_nat_mul, Real.rpow_def_of_pos hpos]
    congr 4; ring
  · obtain ⟨p, h1, h2, _, _, _, h6⟩ := log_state w n lo hi h k hk hn (k - 1) (by omega)
    simp [World.value, h1, h2, h6, fac_pow lo hi h k hk]
  · obtain ⟨p, h1, h2, h3, h4, h5, h6⟩ := log_state w n lo hi h k hk hn j hj
    generalize (w.op (.logStep n lo hi k)).1.run (steps n j) = w1 at h1 ⊢
    simp only [World.op, World.on, h1, World.nextStep, h2, h3, h4, ne_eq, not_true, if_false, h5, h6]
    by_cases hl : j + 1 < k
    · rw [if_neg (by omega), if_pos hl]
      split <;> rfl
    · rw [if_pos (by omega), if_neg hl]; rfl

/-- The hypotheses are met: a parameter that exists, with two dependents. -/
example : ∃ p, (({} : World).run [.make "a" (some (some 1)), .addDependent "a" 0, .addDependent "a" 7]).all "a" = some p ∧ 7 ∈ p.dependents ∧ p.status = .fixed := by
  refine ⟨_, by simp [World.run, World.op, World.make, World.on, ok, set_all]; rfl, by simp, rfl⟩

/-- **C213 is violated: default.**  A parameter made with the default value zero has no value that can be read; any other default can be read. -/
theorem C213_violated_default (w : World) (n : String) (hn : w.all n = none) (x : ℝ) :
    (w.op (.make n (some (some x)))).2 = none ∧ (w.op (.make n (some (some x)))).1.value n = if x = 0 then .error .value else .ok (some x) := by
  simp only [World.op, World.make, hn, ok, World.value, set_all, Option.getD_some]
  by_cases h : x = 0 <;> simp [h]

/-- **C213 is violated: values are not announced.**  Setting the value of a parameter with dependents changes it, then fails with a `NameError` before any of them is told; steps and changes on the unbounded scale change it and tell nobody. -/
theorem C213_violated_told (w : World) (n : String) (p : Prm) (hp : w.all n = some p) :
    (∀ v, p.dependents ≠ [] → p.status ≠ .undef → (w.op (.setValue n v)).2 = some .name ∧ (w.op (.setValue n v)).1.value n = .ok (some v) ∧ (w.op (.setValue n v)).1.log = w.log) ∧
    (w.op (.nextStep n)).1.log = w.log ∧ (w.op (.firstStep n)).1.log = w.log ∧ ∀ u, (w.op (.unboundedSet n u)).1.log = w.log := by
  refine ⟨fun v h h' => ?_, ?_, ?_, fun u => ?_⟩
  · simp [World.op, World.on, hp, World.setValue, h, raise, World.value, set_all, h', World.set]
  all_goals
    simp only [World.op, World.on, hp, World.nextStep, World.firstStep, World.unboundedSet, ok, raise, World.set]
    repeat' (first | rfl | split)

/-- **C213 is violated: the checks of varying parameters.**  In no state can one ask whether a varying parameter is near the end of its range, nor for its value on the unbounded scale. -/
theorem C213_violated_check (w : World) (n : String) : (∀ b, w.check n ≠ .ok b) ∧ (∀ x, w.unboundedValue n ≠ .ok x) := by
  constructor <;> intro b <;> simp only [World.check, World.unboundedValue] <;> repeat' (first | simp | split)

/-- **C213 is violated: a refused request changes the parameter.**  Asking a parameter without range to vary is refused, but its value is the new start value. -/
theorem C213_violated_vary (w : World) (n : String) (p : Prm) (hp : w.all n = some p) (hb : p.bounds = none) (hs : p.status ≠ .undef) (v d : ℝ) :
    (w.op (.vary n (some v) (some d) none)).2 = some .value ∧ (w.op (.vary n (some v) (some d) none)).1.value n = .ok (some v) := by
  simp [World.op, World.on, hp, World.vary, hb, raise, World.value, set_all, hs]

/-- **C213 is violated: the range.**  A varying parameter may start, and a stepping one may step, outside its range. -/
theorem C213_violated_range (w : World) (n : String) (p : Prm) (hp : w.all n = some p) (lo hi v d : ℝ) (hv : hi < v) (hb : p.bounds = some (lo, hi)) :
    (w.op (.vary n (some v) (some d) none)).2 = none ∧ (w.op (.vary n (some v) (some d) none)).1.value n = .ok (some v) ∧
    (w.op (.linStep n v (v + 1) 2)).2 = none ∧ (w.op (.linStep n v (v + 1) 2)).1.value n = .ok (some v) ∧
    (w.op (.assign n v)).2 = some .value := by
  simp [World.op, World.on, hp, World.vary, hb, ok, World.value, setStatus_all, World.linStep, set_all, World.assign, not_le.mpr hv, raise]

/-- **C213 is violated: a single step.**  Stepping with one step fails with a `ZeroDivisionError`, but the parameter counts as stepping and its dependents are told so. -/
theorem C213_violated_single (w : World) (n : String) (p : Prm) (hp : w.all n = some p) (lo hi : ℝ) :
    (w.op (.linStep n lo hi 1)).2 = some .zeroDiv ∧ (w.op (.linStep n lo hi 1)).1.log = w.log ++ p.dependents.map (fun d => ⟨d, n, .stepping⟩) ∧
    (w.op (.linStep n lo hi 1)).1.value n = .ok p.value := by
  simp [World.op, World.on, hp, World.linStep, raise, World.setStatus, World.set, World.value]

/-- **C213, unbounded scale** (partial).  A varying parameter set on the unbounded scale gets the value strictly inside its range whose logarithmic distance from the ends is the given number.
Missing: the value on that scale cannot be read back (`C213_violated_check`). -/
theorem C213_unbounded_partial (w : World) (n : String) (p : Prm) (hp : w.all n = some p) (hs : p.status = .varying) (lo hi u : ℝ) (hb : p.bounds = some (lo, hi)) (h : lo < hi) :
    ∃ v, (w.op (.unboundedSet n u)).2 = none ∧ (w.op (.unboundedSet n u)).1.value n = .ok (some v) ∧ lo < v ∧ v < hi ∧ Real.log (v - lo) - Real.log (hi - v) = u := by
  have he := Real.exp_pos u
  have h1 : (lo + hi * Real.exp u) / (1 + Real.exp u) - lo = (hi - lo) * Real.exp u / (1 + Real.exp u) := by field_simp; ring
  have h2 : hi - (lo + hi * Real.exp u) / (1 + Real.exp u) = (hi - lo) / (1 + Real.exp u) := by field_simp; ring
  have hd : 0 < hi - lo := by linarith
  refine ⟨(lo + hi * Real.exp u) / (1 + Real.exp u), ?_, ?_, ?_, ?_, ?_⟩
  · simp [World.op, World.on, hp, World.unboundedSet, hs, hb, ok]
  · simp [World.op, World.on, hp, World.unboundedSet, hs, hb, ok, World.value, set_all]
  · have : 0 < (hi - lo) * Real.exp u / (1 + Real.exp u) := by positivity
    linarith
  · have : 0 < (hi - lo) / (1 + Real.exp u) := by positivity
    linarith
  · rw [h1, h2, ← Real.log_div (by positivity) (by positivity)]
    have : (hi - lo) * Real.exp u / (1 + Real.exp u) / ((hi - lo) / (1 + Real.exp u)) = Real.exp u := by field_simp
    rw [this, Real.log_exp]

/-- The hypotheses of the last theorems are met by a parameter that varies. -/
example : ∃ p, (({} : World).run [.make "a" (some (some 1)), .vary "a" none (some 1) (some (0, 2))]).all "a" = some p ∧ p.status = .varying ∧ p.bounds = some (0, 2) := by
  refine ⟨_, by simp [World.run, World.op, World.make, World.on, ok, set_all, World.vary, setStatus_all]; rfl, rfl, by simp⟩

end Verif.Pie.Registry
