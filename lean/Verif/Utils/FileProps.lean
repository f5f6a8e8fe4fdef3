import Verif.Utils.Files
import Mathlib.Data.List.Basic
import Mathlib.Data.List.Infix
import Mathlib.Data.List.Nodup
import Mathlib.Tactic.Cases

/-!
# Backups, saved generator states, stores, column files: properties C43–C47, C79
-/

set_option linter.unusedSectionVars false
set_option linter.unusedSimpArgs false

namespace Verif.Files

variable {α : Type*}

/-! ### C43 -/

/-- How far one attempt to save gets: it dies during the backup, after the given number of steps (all of them done if there are fewer), it dies after the new file has
been created, or it completes. -/
inductive Fate
  | inBackup (steps : ℕ)
  | torn
  | done

/-- The steps that have been taken. -/
def taken (fs : FS α) (f : String) (c : α) : Fate → List (Step α)
  | .inBackup k => (backup fs f).take k
  | .torn => backup fs f ++ [.create f]
  | .done => saveSteps fs f c

/-- A history of attempts to save under one name. -/
def attempts (fs : FS α) (f : String) : List (α × Fate) → FS α
  | [] => fs
  | (c, w) :: l => attempts (fs.run (taken fs f c w)) f l

/-- The versions such a history creates, newest first. -/
def versions : List (α × Fate) → List (File α)
  | [] => []
  | (c, .done) :: l => versions l ++ [.whole c]
  | (_, .torn) :: l => versions l ++ [.torn]
  | (_, .inBackup _) :: l => versions l

/-- Every crash point is covered: the prefixes of the steps of a save are those taken under one of the fates. -/
theorem C43_crash_points (fs : FS α) (f : String) (c : α) (l : List (Step α)) : l <+: saveSteps fs f c ↔ ∃ w, l = taken fs f c w := by
  constructor
  · intro h
    obtain ⟨k, rfl⟩ : ∃ k, l = (saveSteps fs f c).take k := ⟨_, (List.prefix_iff_eq_take.mp h)⟩
    unfold saveSteps
    by_cases h1 : k ≤ (backup fs f).length
    · exact ⟨.inBackup k, by rw [List.take_append_of_le_length h1]; rfl⟩
    · by_cases h2 : k = (backup fs f).length + 1
      · refine ⟨.torn, ?_⟩
        subst h2
        rw [List.take_length_add_append]
        rfl
      · refine ⟨.done, ?_⟩
        rw [List.take_of_length_le (by simp; omega)]
        rfl
  · rintro ⟨w, rfl⟩
    cases w with
    | inBackup k => exact (List.take_prefix _ _).trans (List.prefix_append _ _)
    | torn => exact ⟨[.write f c], by simp [taken, saveSteps]⟩
    | done => exact List.prefix_rfl

theorem ne_append {f s : String} (h : s ≠ "") : f ≠ f ++ s := by
  intro h'
  have := congrArg String.length h'
  rw [String.length_append] at this
  have h0 : s.length = 0 := by omega
  exact h (String.length_eq_zero_iff.mp h0)

theorem bak_ne (f : String) : f ≠ bak f ∧ f ≠ bak2 f ∧ bak f ≠ bak2 f := by
  refine ⟨ne_append (by decide), ?_, ne_append (by decide)⟩
  unfold bak2
  rw [String.append_assoc]
  exact ne_append (by decide)

/-- The three names. -/
def trio (fs : FS α) (f : String) : Option (File α) × Option (File α) × Option (File α) := (fs f, fs (bak f), fs (bak2 f))

theorem set_same (fs : FS α) (n : String) (v : Option (File α)) : fs.set n v n = v := by simp [FS.set]
theorem set_other (fs : FS α) {n m : String} (v : Option (File α)) (h : m ≠ n) : fs.set n v m = fs m := by simp [FS.set, h]

theorem trio_create (fs : FS α) (f : String) : trio (fs.step (.create f)) f = (some .torn, (trio fs f).2) := by
  obtain ⟨h1, h2, h3⟩ := bak_ne f
  simp [trio, FS.step, FS.set, h1.symm, h2.symm]

theorem trio_write (fs : FS α) (f : String) (c : α) : trio (fs.step (.write f c)) f = (some (.whole c), (trio fs f).2) := by
  obtain ⟨h1, h2, h3⟩ := bak_ne f
  simp [trio, FS.step, FS.set, h1.symm, h2.symm]

/-- The files after a part of a backup: nothing done, or the second version moved, or both moved. -/
theorem trio_backup (fs : FS α) (f : String) (k : ℕ) : let t := trio fs f
    (trio (fs.run ((backup fs f).take k)) f = t ∧ (k = 0 ∨ t.1 = none)) ∨
      (t.1.isSome ∧ t.2.1.isSome ∧ trio (fs.run ((backup fs f).take k)) f = (t.1, none, t.2.1) ∧ k = 1) ∨
      (t.1.isSome ∧ trio (fs.run ((backup fs f).take k)) f = (none, t.1, if t.2.1.isSome then t.2.1 else t.2.2) ∧ 0 < k) := by
  obtain ⟨h1, h2, h3⟩ := bak_ne f
  intro t
  unfold t
  unfold backup backupSteps
  cases h : fs f with
  | none => left; simp [trio, h, FS.run]
  | some a =>
    cases h' : fs (bak f) with
    | none =>
      rcases k with _ | k
      · left; simp [trio, h, h', FS.run]
      · right; right
        simp [trio, h, h', FS.run, FS.step, FS.set, h1, h2, h3, h1.symm, h2.symm, h3.symm]
    | some b =>
      rcases k with _ | _ | k
      · left; simp [trio, h, h', FS.run]
      · right; left
        simp [trio, h, h', FS.run, FS.step, FS.set, h1, h2, h3, h1.symm, h2.symm, h3.symm]
      · right; right
        simp [trio, h, h', FS.run, FS.step, FS.set, h1, h2, h3, h1.symm, h2.symm, h3.symm]

/-- The possible arrangements of the versions. -/
def Arranged (t : Option (File α) × Option (File α) × Option (File α)) (vs : List (File α)) : Prop :=
  t = (vs[0]?, vs[1]?, vs[2]?) ∨ t = (vs[0]?, none, vs[1]?) ∨ t = (none, vs[0]?, vs[1]?)

theorem arranged_backup (fs : FS α) (f : String) (k : ℕ) {vs : List (File α)} (h : Arranged (trio fs f) vs) : Arranged (trio (fs.run ((backup fs f).take k)) f) vs := by
  rcases trio_backup fs f k with ⟨e, -⟩ | ⟨e1, e2, e, -⟩ | ⟨e1, e, -⟩
  · rw [e]; exact h
  · rw [e]
    rcases h with h | h | h <;> rw [h] at e1 e2 ⊢
    · right; left; rfl
    · simp at e2
    · simp at e1
  · rw [e]
    rcases h with h | h | h <;> rw [h] at e1 ⊢
    · right; right
      rcases vs with _ | ⟨a, _ | ⟨b, vs⟩⟩ <;> simp at e1 ⊢
    · right; right
      simp
    · simp at e1

theorem backup_done (fs : FS α) (f : String) {vs : List (File α)} (h : Arranged (trio fs f) vs) : (trio (fs.run (backup fs f)) f).2 = (vs[0]?, vs[1]?) := by
  have hk := trio_backup fs f ((backup fs f).length + 2)
  rw [List.take_of_length_le (by omega)] at hk
  rcases hk with ⟨e, e0⟩ | ⟨_, _, _, e0⟩ | ⟨e1, e, -⟩
  · rw [e]
    rcases e0 with e0 | e0
    · omega
    · rcases h with h | h | h <;> rw [h] at e0 ⊢
      · cases vs with
        | nil => rfl
        | cons a vs => simp at e0
      · cases vs with
        | nil => rfl
        | cons a vs => simp at e0
  · omega
  · rw [e]
    rcases h with h | h | h <;> rw [h] at e1 ⊢
    · rcases vs with _ | ⟨a, _ | ⟨b, vs⟩⟩ <;> simp at e1 ⊢
    · simp
    · simp at e1

theorem run_append (fs : FS α) (l l' : List (Step α)) : fs.run (l ++ l') = (fs.run l).run l' := List.foldl_append

theorem attempts_arranged (f : String) : ∀ (h : List (α × Fate)) (fs : FS α) (vs : List (File α)), Arranged (trio fs f) vs →
    Arranged (trio (attempts fs f h) f) (versions h ++ vs)
  | [], fs, vs, hv => hv
  | (c, w) :: l, fs, vs, hv => by
    cases w with
    | inBackup k => exact attempts_arranged f l _ _ (arranged_backup fs f k hv)
    | torn =>
      have := attempts_arranged f l (fs.run (taken fs f c .torn)) (.torn :: vs) (by
        left
        show trio (fs.run (backup fs f ++ [.create f])) f = _
        rw [run_append]
        show trio ((fs.run (backup fs f)).step (.create f)) f = _
        rw [trio_create, backup_done fs f hv]
        simp)
      simpa [versions, attempts] using this
    | done =>
      have := attempts_arranged f l (fs.run (taken fs f c .done)) (.whole c :: vs) (by
        left
        show trio (fs.run (backup fs f ++ [.create f, .write f c])) f = _
        rw [run_append]
        show trio (((fs.run (backup fs f)).step (.create f)).step (.write f c)) f = _
        rw [trio_write, trio_create, backup_done fs f hv]
        simp)
      simpa [versions, attempts] using this

/-- **C43.** After any history of attempts to save under a name, each of which may die at any point, followed by more attempts, starting without files of these names:
the files `name`, `name%`, `name%%` hold, in this order, the newest versions, at least the two newest. -/
theorem C43_crash (fs : FS α) (f : String) (h : List (α × Fate)) (h0 : fs f = none ∧ fs (f ++ "%") = none ∧ fs (f ++ "%%") = none) :
    let l := [attempts fs f h f, attempts fs f h (f ++ "%"), attempts fs f h (f ++ "%%")].filterMap id
    l <+: versions h ∧ min 2 (versions h).length ≤ l.length := by
  have e2 : bak2 f = f ++ "%%" := by unfold bak2; rw [String.append_assoc]; rfl
  have hv := attempts_arranged f h fs [] (by
    left
    show (fs f, fs (bak f), fs (bak2 f)) = _
    rw [e2]
    exact Prod.ext h0.1 (Prod.ext h0.2.1 h0.2.2))
  rw [List.append_nil] at hv
  intro l
  have hl : l = [(trio (attempts fs f h) f).1, (trio (attempts fs f h) f).2.1, (trio (attempts fs f h) f).2.2].filterMap id := by
    unfold l trio
    rw [e2]; rfl
  rw [hl]
  generalize versions h = vs at hv
  rcases hv with hv | hv | hv <;> rw [hv]
  · rcases vs with _ | ⟨a, _ | ⟨b, _ | ⟨c, vs⟩⟩⟩ <;> simp [List.prefix_cons_iff]
  · rcases vs with _ | ⟨a, _ | ⟨b, vs⟩⟩ <;> simp [List.prefix_cons_iff]
  · rcases vs with _ | ⟨a, _ | ⟨b, vs⟩⟩ <;> simp [List.prefix_cons_iff]

theorem arranged_done (f : String) : ∀ (cs : List α) (fs : FS α) (vs : List (File α)), trio fs f = (vs[0]?, vs[1]?, vs[2]?) →
    trio (attempts fs f (cs.map fun c => (c, .done))) f =
      (((cs.map File.whole).reverse ++ vs)[0]?, ((cs.map File.whole).reverse ++ vs)[1]?, ((cs.map File.whole).reverse ++ vs)[2]?)
  | [], fs, vs, hv => by simpa [attempts] using hv
  | c :: cs, fs, vs, hv => by
    have := arranged_done f cs (fs.run (taken fs f c .done)) (.whole c :: vs) (by
      show trio (fs.run (backup fs f ++ [.create f, .write f c])) f = _
      rw [run_append]
      show trio (((fs.run (backup fs f)).step (.create f)).step (.write f c)) f = _
      rw [trio_write, trio_create, backup_done fs f (Or.inl hv)]
      simp)
    simpa [attempts] using this

/-- **C43.** After saves that all complete, `name` holds the last, `name%` the one before and `name%%` the one before that. -/
theorem C43_latest (fs : FS α) (f : String) (cs : List α) (h0 : fs f = none ∧ fs (f ++ "%") = none ∧ fs (f ++ "%%") = none) :
    let fs' := attempts fs f (cs.map fun c => (c, .done))
    fs' f = cs.reverse[0]?.map .whole ∧ fs' (f ++ "%") = cs.reverse[1]?.map .whole ∧ fs' (f ++ "%%") = cs.reverse[2]?.map .whole := by
  have e2 : bak2 f = f ++ "%%" := by unfold bak2; rw [String.append_assoc]; rfl
  have hv := arranged_done f cs fs [] (by
    show (fs f, fs (bak f), fs (bak2 f)) = _
    rw [e2]
    exact Prod.ext h0.1 (Prod.ext h0.2.1 h0.2.2))
  intro fs'
  unfold trio at hv
  rw [e2, List.append_nil, ← List.map_reverse] at hv
  simp only [Prod.mk.injEq, List.getElem?_map] at hv
  exact hv

/-- **C43.** `backup` alone frees the name and keeps what it held, and the version before, under the two backup names. -/
theorem C43_backup (fs : FS α) (f : String) (a : File α) (h : fs f = some a) : let fs' := fs.run (backup fs f)
    fs' f = none ∧ fs' (f ++ "%") = some a ∧ (∀ b, fs (f ++ "%") = some b → fs' (f ++ "%%") = some b) ∧
      (fs (f ++ "%") = none → fs' (f ++ "%%") = fs (f ++ "%%")) := by
  have e2 : bak2 f = f ++ "%%" := by unfold bak2; rw [String.append_assoc]; rfl
  have hk := trio_backup fs f ((backup fs f).length + 2)
  rw [List.take_of_length_le (by omega)] at hk
  intro fs'
  have e : trio fs f = (some a, fs (f ++ "%"), fs (f ++ "%%")) := by unfold trio; rw [h, e2]; rfl
  have e' : trio fs' f = (fs' f, fs' (f ++ "%"), fs' (f ++ "%%")) := by unfold trio; rw [e2]; rfl
  rw [e] at hk
  rcases hk with ⟨_, e0⟩ | ⟨_, _, _, e0⟩ | ⟨_, e1, -⟩
  · rcases e0 with e0 | e0
    · omega
    · simp at e0
  · omega
  · have e3 : trio (fs.run (backup fs f)) f = (fs' f, fs' (f ++ "%"), fs' (f ++ "%%")) := e'
    rw [e3] at e1
    simp only [Prod.mk.injEq] at e1
    obtain ⟨q1, q2, q3⟩ := e1
    refine ⟨q1, q2, fun b hb => ?_, fun hb => ?_⟩
    · rw [q3, hb]; rfl
    · rw [q3, hb]; rfl

/-- The names a step touches. -/
def touched : Step α → List String
  | .rename a b => [a, b]
  | .create a => [a]
  | .write a _ => [a]

theorem run_frame (n : String) : ∀ (l : List (Step α)) (fs : FS α), (∀ s ∈ l, n ∉ touched s) → fs.run l n = fs n
  | [], _, _ => rfl
  | s :: l, fs, h => by
    show (fs.step s).run l n = _
    rw [run_frame n l _ fun s' hs' => h s' (by simp [hs'])]
    have := h s (by simp)
    cases s <;> simp_all [FS.step, FS.set, touched]

theorem backup_frame (fs : FS α) (f n : String) (hn : n ≠ f ∧ n ≠ bak f ∧ n ≠ bak2 f) : ∀ s ∈ backup fs f, n ∉ touched s := by
  intro s hs
  unfold backup backupSteps at hs
  split_ifs at hs <;> simp at hs
  · rcases hs with rfl | rfl <;> simp [touched, hn.1, hn.2.1, hn.2.2]
  · rw [hs]; simp [touched, hn.1, hn.2.1]

/-- No other file is ever changed. -/
theorem C43_frame (f n : String) (hn : n ≠ f ∧ n ≠ f ++ "%" ∧ n ≠ f ++ "%%") : ∀ (h : List (α × Fate)) (fs : FS α), attempts fs f h n = fs n
  | [], fs => rfl
  | (c, w) :: l, fs => by
    have e2 : bak2 f = f ++ "%%" := by unfold bak2; rw [String.append_assoc]; rfl
    have hb := backup_frame fs f n ⟨hn.1, hn.2.1, by rw [e2]; exact hn.2.2⟩
    show attempts (fs.run (taken fs f c w)) f l n = _
    rw [C43_frame f n hn l]
    apply run_frame
    intro s hs
    cases w with
    | inBackup k => exact hb s (List.mem_of_mem_take hs)
    | torn =>
      rcases List.mem_append.mp hs with hs | hs
      · exact hb s hs
      · simp at hs; rw [hs]; simp [touched, hn.1]
    | done =>
      rcases List.mem_append.mp hs with hs | hs
      · exact hb s hs
      · simp at hs; rcases hs with rfl | rfl <;> simp [touched, hn.1]

theorem three_torn (fs : FS α) (f : String) (c : α) (vs : List (File α)) (h : Arranged (trio fs f) vs) :
    let fs' := attempts fs f [(c, .torn), (c, .torn), (c, .torn)]
    fs' f = some .torn ∧ fs' (f ++ "%") = some .torn ∧ fs' (f ++ "%%") = some .torn := by
  have step : ∀ (fs : FS α) vs, Arranged (trio fs f) vs → trio (fs.run (taken fs f c .torn)) f = (some .torn, vs[0]?, vs[1]?) := by
    intro fs vs h
    show trio (fs.run (backup fs f ++ [.create f])) f = _
    rw [run_append]
    show trio ((fs.run (backup fs f)).step (.create f)) f = _
    rw [trio_create, backup_done fs f h]
  have e2 : bak2 f = f ++ "%%" := by unfold bak2; rw [String.append_assoc]; rfl
  have s1 := step fs vs h
  have s2 := step _ (.torn :: vs) (Or.inl (by rw [s1]; simp))
  have s3 := step _ (.torn :: .torn :: vs) (Or.inl (by rw [s2]; simp))
  intro fs'
  have e' : trio fs' f = (fs' f, fs' (f ++ "%"), fs' (f ++ "%%")) := by unfold trio; rw [e2]; rfl
  have : trio fs' f = (some .torn, some .torn, some .torn) := s3
  rw [e'] at this
  simpa using this

theorem attempts_append (f : String) : ∀ (h h' : List (α × Fate)) (fs : FS α), attempts fs f (h ++ h') = attempts (attempts fs f h) f h'
  | [], _, _ => rfl
  | (c, w) :: l, h', fs => attempts_append f l h' _

/-- A limit of the scheme: three attempts that die while writing leave no complete version, whatever had been saved before. -/
theorem C43_three_torn (fs : FS α) (f : String) (h : List (α × Fate)) (c : α) (h0 : fs f = none ∧ fs (f ++ "%") = none ∧ fs (f ++ "%%") = none) :
    let fs' := attempts fs f (h ++ [(c, .torn), (c, .torn), (c, .torn)])
    fs' f = some .torn ∧ fs' (f ++ "%") = some .torn ∧ fs' (f ++ "%%") = some .torn := by
  have e2 : bak2 f = f ++ "%%" := by unfold bak2; rw [String.append_assoc]; rfl
  have hv := attempts_arranged f h fs [] (by
    left
    show (fs f, fs (bak f), fs (bak2 f)) = _
    rw [e2]
    exact Prod.ext h0.1 (Prod.ext h0.2.1 h0.2.2))
  rw [attempts_append]
  exact three_torn _ f c _ hv

/-- A concrete history: two complete saves, one that dies between the two renamings, another complete one. -/
example : versions [(1, .done), (2, .done), (3, .inBackup 1), (4, .done)] = [File.whole 4, .whole 2, .whole 1] := by
  simp [versions]
example : let fs := attempts (fun _ => none) "d" [(1, .done), (2, .done), (3, .inBackup 1), (4, .done)]
    fs "d" = some (.whole 4) ∧ fs "d%" = some (.whole 2) ∧ fs "d%%" = some (.whole 1) := by decide +kernel

/-! ### C44 -/

/-- **C44 is violated.** Whatever the files and the state of the generator, `save_rng` raises, and the file it leaves under the name given is not a saved state. -/
theorem C44_violated (fs : FS α) (f : String) (st : α) : (saveRng fs f (some st)).2 = some .type ∧ (saveRng fs f (some st)).1 f = some .torn ∧
    (restoreRng (saveRng fs f (some st)).1 f (some st)).2 = .error .type := by
  have h : (saveRng fs f (some st)).1 f = some .torn := by simp [saveRng, FS.step, FS.set]
  refine ⟨rfl, h, ?_⟩
  unfold restoreRng
  rw [h]

/-- Nor does `restore_rng` ever set a state: it raises, also if there is no file yet. -/
theorem C44_violated_restore (fs : FS α) (f : String) (st : Option α) : ∃ e, (restoreRng fs f st).2 = .error e := by
  unfold restoreRng
  cases fs f with
  | some _ => exact ⟨_, rfl⟩
  | none => cases st <;> exact ⟨_, rfl⟩

theorem rng_names (f : String) : f ≠ f ++ ".1" ∧ f ≠ f ++ ".2" ∧ f ++ ".1" ≠ f ++ ".2" := by
  refine ⟨ne_append (by decide), ne_append (by decide), fun h => ?_⟩
  have h' := congrArg String.toList h
  rw [String.toList_append, String.toList_append] at h'
  exact absurd (List.append_cancel_left h') (by decide)

/-- **C44 (partial).** Though it raises, `save_rng` has moved the two previous files to the names with suffixes `.1` and `.2`; and it raises before it changes anything
if the generator is not the Mersenne twister.  Missing: a restorable state. -/
theorem C44_rotation_partial (fs : FS α) (f : String) (st : α) (a b : File α) (ha : fs f = some a) (hb : fs (f ++ ".1") = some b) :
    (saveRng fs f (some st)).1 (f ++ ".1") = some a ∧ (saveRng fs f (some st)).1 (f ++ ".2") = some b ∧ saveRng fs f none = (fs, some .runtime) := by
  obtain ⟨h1, h2, h3⟩ := rng_names f
  refine ⟨?_, ?_, rfl⟩ <;>
    simp [saveRng, backupSteps, ha, hb, FS.run, FS.step, FS.set, h1, h2, h3, h1.symm, h2.symm, h3.symm]

/-- Three calls destroy every state saved earlier (say, by an older version of Python). -/
theorem C44_violated_history (fs : FS α) (f : String) (st : α) : let save := fun fs : FS α => (saveRng fs f (some st)).1
    let fs' := save (save (save fs))
    fs' f = some .torn ∧ fs' (f ++ ".1") = some .torn ∧ fs' (f ++ ".2") = some .torn := by
  obtain ⟨h1, h2, h3⟩ := rng_names f
  have e0 : ∀ fs : FS α, (saveRng fs f (some st)).1 f = some .torn := by intro fs; simp [saveRng, FS.step, FS.set]
  have e1 : ∀ fs : FS α, fs f = some .torn → (saveRng fs f (some st)).1 (f ++ ".1") = some .torn := by
    intro fs h
    cases hb : fs (f ++ ".1") <;> simp [saveRng, backupSteps, h, hb, FS.run, FS.step, FS.set, h1, h2, h3, h1.symm, h2.symm, h3.symm]
  have e2 : ∀ fs : FS α, fs f = some .torn → fs (f ++ ".1") = some .torn → (saveRng fs f (some st)).1 (f ++ ".2") = some .torn := by
    intro fs h hb
    simp [saveRng, backupSteps, h, hb, FS.run, FS.step, FS.set, h1, h2, h3, h1.symm, h2.symm, h3.symm]
  exact ⟨e0 _, e1 _ (e0 _), e2 _ (e0 _) (e1 _ (e0 _))⟩

/-! ### C45, C46 -/

section
variable {V : Type*}

/-- The keys of a dictionary are distinct. -/
def Dict.Ok (d : Dict V) : Prop := (d.map (·.1)).Nodup

theorem get_cons (p : String × V) (d : Dict V) (n : String) : Dict.get (p :: d) n = if p.1 = n then some p.2 else Dict.get d n := by
  unfold Dict.get
  by_cases h : p.1 = n <;> simp [List.find?_cons, h]

theorem get_set (d : Dict V) (k n : String) (v : V) : (d.set k v).get n = if n = k then some v else d.get n := by
  induction d with
  | nil =>
    show Dict.get [(k, v)] n = _
    rw [get_cons]
    by_cases h : n = k
    · simp [h]
    · simp [h, Ne.symm h, Dict.get]
  | cons p d ih =>
    obtain ⟨k', v'⟩ := p
    unfold Dict.set
    by_cases h : k' = k
    · subst h
      rw [if_pos rfl, get_cons, get_cons]
      by_cases hn : n = k'
      · subst hn; simp
      · simp [hn, Ne.symm hn]
    · rw [if_neg h, get_cons, get_cons, ih]
      by_cases hn : n = k
      · subst hn; simp [h]
      · simp [hn]

theorem get_none {d : Dict V} {n : String} : d.get n = none ↔ n ∉ d.map (·.1) := by
  induction d with
  | nil => simp [Dict.get]
  | cons p d ih =>
    rw [get_cons]
    by_cases h : p.1 = n
    · simp [h]
    · rw [if_neg h, ih]; simp [Ne.symm h]

theorem keys_set (d : Dict V) (k : String) (v : V) : ∀ n, n ∈ (d.set k v).map (·.1) ↔ n = k ∨ n ∈ d.map (·.1) := by
  intro n
  have h := get_set d k n v
  by_cases hn : n = k
  · rw [if_pos hn] at h
    constructor
    · intro _; exact Or.inl hn
    · intro _
      by_contra hc
      rw [get_none.mpr hc] at h
      simp at h
  · rw [if_neg hn] at h
    constructor
    · intro h1
      right
      by_contra hc
      rw [get_none.mpr hc] at h
      exact (get_none.mp h) h1
    · rintro (h1 | h1)
      · exact absurd h1 hn
      · by_contra hc
        rw [get_none.mpr hc] at h
        exact (get_none.mp h.symm) h1

theorem set_ok {d : Dict V} (h : d.Ok) (k : String) (v : V) : (d.set k v).Ok := by
  induction d with
  | nil => simp [Dict.set, Dict.Ok]
  | cons p d ih =>
    obtain ⟨k', v'⟩ := p
    unfold Dict.Ok at h
    simp only [List.map_cons, List.nodup_cons] at h
    unfold Dict.set
    split_ifs with hk
    · subst hk
      unfold Dict.Ok
      simp only [List.map_cons, List.nodup_cons]
      exact h
    · unfold Dict.Ok
      simp only [List.map_cons, List.nodup_cons]
      refine ⟨fun hm => ?_, ih h.2⟩
      rcases (keys_set d k v k').mp hm with e | e
      · exact hk e
      · exact h.1 e

theorem addAll_cons (d : Dict V) (p : String × V) (e : Dict V) : d.addAll (p :: e) = (d.set p.1 p.2).addAll e := rfl

theorem addAll_ok {d : Dict V} (h : d.Ok) (e : Dict V) : (d.addAll e).Ok := by
  induction e generalizing d with
  | nil => exact h
  | cons p e ih => exact ih (set_ok h _ _)

theorem addAll_get (d e : Dict V) (he : e.Ok) (n : String) : (d.addAll e).get n = (e.get n).or (d.get n) := by
  induction e generalizing d with
  | nil => simp [Dict.addAll, Dict.get]
  | cons p e ih =>
    unfold Dict.Ok at he
    simp only [List.map_cons, List.nodup_cons] at he
    rw [addAll_cons, ih _ he.2, get_set, get_cons]
    by_cases h : p.1 = n
    · subst h
      rw [get_none.mpr he.1]
      simp
    · simp [h, Ne.symm h]

theorem filter_get (a : Dict V) (q : String → Bool) (n : String) : Dict.get (a.filter fun p => q p.1) n = if q n then a.get n else none := by
  induction a with
  | nil => simp [Dict.get]
  | cons p a ih =>
    rw [List.filter_cons]
    by_cases h : q p.1
    · rw [if_pos h, get_cons, get_cons, ih]
      by_cases hn : p.1 = n
      · subst hn; simp [h]
      · simp [hn]
    · rw [if_neg h, ih, get_cons]
      by_cases hn : p.1 = n
      · subst hn; simp [h]
      · simp [hn]

theorem filter_ok {a : Dict V} (h : a.Ok) (q : String × V → Bool) : Dict.Ok (a.filter q) := by
  unfold Dict.Ok at *
  exact h.sublist (List.filter_sublist.map _)

/-- What a user does with a store between opening and saving it. -/
inductive Use (V : Type*)
  | read (n : String)
  | assign (n : String) (v : V)

/-- The store after some uses (exceptions caught by the user). -/
def session (k : Kind V) (s : Store V) : List (Use V) → Store V
  | [] => s
  | .read n :: l => session k (s.getattr n).1 l
  | .assign n v :: l => session k (s.setattr k n v).1 l

/-- The last acceptable value assigned to a name. -/
def lastAssigned (k : Kind V) (n : String) : List (Use V) → Option V
  | [] => none
  | .read _ :: l => lastAssigned k n l
  | .assign m v :: l => (lastAssigned k n l).or (if m = n ∧ k.accepts v then some v else none)

/-- Invariant of a session. -/
structure Sess (k : Kind V) (d : Dict V) (as : String → Option V) (s : Store V) : Prop where
  pok : s.pulled.Ok
  nok : s.new.Ok
  new : ∀ n, s.new.get n = as n
  pulled : ∀ n v, s.pulled.get n = some v → d.get n = some v
  inst : ∀ n, s.inst.get n = (as n).or (s.pulled.get n)

/-- The archive of a store as a dictionary. -/
def Arch.dict : Arch V → Dict V
  | .loaded d => d
  | _ => []

theorem sess_read {k : Kind V} {as : String → Option V} {s : Store V} (h : Sess k s.arch.dict as s) (n : String) :
    Sess k s.arch.dict as (s.getattr n).1 ∧ (s.getattr n).1.arch = s.arch ∧ (s.getattr n).1.fname = s.fname := by
  unfold Store.getattr
  cases h1 : s.inst.get n with
  | some v => exact ⟨h, rfl, rfl⟩
  | none =>
    dsimp only
    split_ifs
    · exact ⟨h, rfl, rfl⟩
    · cases h2 : s.arch with
      | unset => dsimp only; rw [h2] at h; exact ⟨h, h2, rfl⟩
      | none => dsimp only; rw [h2] at h; exact ⟨h, h2, rfl⟩
      | loaded d =>
        dsimp only
        rw [h2] at h
        cases h3 : d.get n with
        | none => exact ⟨h, h2, rfl⟩
        | some v =>
          refine ⟨⟨set_ok h.pok _ _, h.nok, h.new, ?_, ?_⟩, rfl, rfl⟩
          · intro m w hm
            dsimp only at hm
            rw [get_set] at hm
            split_ifs at hm with e
            · cases hm; rw [e]; exact h3
            · exact h.pulled m w hm
          · intro m
            dsimp only
            rw [get_set, get_set, h.inst]
            split_ifs with e
            · subst e
              have := h.inst m
              rw [h1] at this
              cases ha : as m with
              | none => rfl
              | some w => rw [ha] at this; simp at this
            · rfl

theorem sess_assign {k : Kind V} {as : String → Option V} {s : Store V} {d : Dict V} (h : Sess k d as s) (n : String) (v : V) :
    Sess k d (fun m => if n = m ∧ k.accepts v then some v else as m) (s.setattr k n v).1 ∧ (s.setattr k n v).1.arch = s.arch ∧ (s.setattr k n v).1.fname = s.fname := by
  unfold Store.setattr
  by_cases hv : k.accepts v
  · rw [if_pos hv]
    refine ⟨⟨h.pok, set_ok h.nok _ _, ?_, h.pulled, ?_⟩, rfl, rfl⟩
    · intro m
      dsimp only
      rw [get_set, h.new]
      by_cases e : m = n
      · subst e; simp [hv]
      · simp [e, Ne.symm e]
    · intro m
      dsimp only
      rw [get_set, h.inst]
      by_cases e : m = n
      · subst e; simp [hv]
      · simp [e, Ne.symm e]
  · rw [if_neg hv]
    simp only [hv, Bool.false_eq_true, and_false, if_false, and_self, and_true]
    exact h

theorem sess_run (k : Kind V) : ∀ (ops : List (Use V)) (as : String → Option V) (s : Store V), Sess k s.arch.dict as s →
    Sess k s.arch.dict (fun n => (lastAssigned k n ops).or (as n)) (session k s ops) ∧ (session k s ops).arch = s.arch ∧ (session k s ops).fname = s.fname
  | [], as, s, h => ⟨by simp only [lastAssigned, Option.none_or]; exact h, rfl, rfl⟩
  | .read n :: l, as, s, h => by
    obtain ⟨h1, h2, h3⟩ := sess_read h n
    obtain ⟨i1, i2, i3⟩ := sess_run k l as (s.getattr n).1 (by rw [h2]; exact h1)
    rw [h2] at i1
    exact ⟨i1, i2.trans h2, i3.trans h3⟩
  | .assign n v :: l, as, s, h => by
    obtain ⟨h1, h2, h3⟩ := sess_assign h n v
    obtain ⟨i1, i2, i3⟩ := sess_run k l _ (s.setattr k n v).1 (by rw [h2]; exact h1)
    rw [h2] at i1
    refine ⟨?_, i2.trans h2, i3.trans h3⟩
    have hfun : (fun m => (lastAssigned k m (.assign n v :: l)).or (as m)) =
        fun m => (lastAssigned k m l).or (if n = m ∧ k.accepts v then some v else as m) := by
      funext m
      simp only [lastAssigned]
      rw [Option.or_assoc]
      congr 1
      by_cases e : n = m ∧ k.accepts v <;> simp [e]
    rw [hfun]
    exact i1

theorem sess_init (k : Kind V) (a : Arch V) (f : Option String) : Sess k a.dict (fun _ => none) (⟨a, f, [], [], []⟩ : Store V) :=
  ⟨by simp [Dict.Ok], by simp [Dict.Ok], by simp [Dict.get], by simp [Dict.get], by simp [Dict.get]⟩

theorem gather_get {k : Kind V} {as : String → Option V} {s : Store V} {d : Dict V} (h : Sess k d as s) (hd : d.Ok) (n : String) :
    (s.gather d).get n = (as n).or (d.get n) ∧ (s.gather d).Ok := by
  unfold Store.gather
  dsimp only
  refine ⟨?_, addAll_ok (addAll_ok (addAll_ok (by simp [Dict.Ok]) _) _) _⟩
  have hf : Dict.get (d.filter fun p => (s.pulled.get p.1).isNone) n = if (s.pulled.get n).isNone then d.get n else none :=
    filter_get d (fun m => (s.pulled.get m).isNone) n
  rw [addAll_get _ _ h.nok, addAll_get _ _ (filter_ok hd _), addAll_get _ _ h.pok, hf, h.new]
  congr 1
  cases hp : s.pulled.get n with
  | none => simp [Dict.get]
  | some v => rw [h.pulled n v hp]; simp

/-- **C45.** Reading an attribute of a store opened on a file, after any history of reads and assignments, gives the last value assigned, else the archived value, else
`AttributeError`, for names that are not those of methods.
Missing: the names of methods (`C45_violated_method`) and arrays named `file` (`C45_violated`). -/
theorem C45_read_partial (k : Kind V) (fs : FS (Dict V)) (f : String) (hf : f ≠ "" ∧ endsWith f k.suffix = false) (d : Dict V)
    (hfs : fs (f ++ k.suffix) = some (.whole d)) (ops : List (Use V)) (n : String) (hn : n ≠ "save" ∧ n ≠ "contents") :
    ∃ s, Store.open k fs (some f) = .ok s ∧ ((session k s ops).getattr n).2 =
      match (lastAssigned k n ops).or (d.get n) with
      | some v => .ok (.value v)
      | none => .error .attribute := by
  have ho : Store.open k fs (some f) = .ok ⟨.loaded d, some (f ++ k.suffix), [], [], []⟩ := by
    unfold Store.open
    simp [hf.1, hf.2, hfs]
  refine ⟨_, ho, ?_⟩
  obtain ⟨h, h2, _⟩ := sess_run k ops (fun _ => none) (⟨.loaded d, some (f ++ k.suffix), [], [], []⟩ : Store V) (sess_init k (.loaded d) (some (f ++ k.suffix)))
  simp only [Option.or_none] at h
  generalize session k _ ops = s at h h2
  change Sess k d _ s at h
  dsimp only at h2
  unfold Store.getattr
  have hi := h.inst n
  cases h1 : s.inst.get n with
  | some v =>
    dsimp only
    rw [h1] at hi
    cases ha : lastAssigned k n ops with
    | some w => rw [ha] at hi; simp at hi; simp [hi]
    | none =>
      rw [ha, Option.none_or] at hi
      rw [Option.none_or, h.pulled n v hi.symm]
  | none =>
    rw [h1] at hi
    have ha : lastAssigned k n ops = none := by
      cases ha : lastAssigned k n ops with
      | none => rfl
      | some w => rw [ha] at hi; simp at hi
    rw [ha, Option.none_or]
    dsimp only
    rw [if_neg (by simp [classNames, hn.1, hn.2]), h2]
    dsimp only
    cases d.get n <;> rfl

/-- One cycle: open by the name without suffix, use, save under the same name.  `none` if opening or saving raises. -/
def cycle (k : Kind V) (fs : FS (Dict V)) (f : String) (ops : List (Use V)) : Option (FS (Dict V)) :=
  match Store.open k fs (some f) with
  | .error _ => none
  | .ok s =>
    match (session k s ops).saveS k fs none with
    | (l, none) => some (fs.run l)
    | (_, some _) => none

/-- Several cycles. -/
def cycles (k : Kind V) (fs : FS (Dict V)) (f : String) : List (List (Use V)) → Option (FS (Dict V))
  | [] => some fs
  | ops :: l =>
    match cycle k fs f ops with
    | none => none
    | some fs => cycles k fs f l

theorem save_done (fs : FS (Dict V)) (f : String) (d : Dict V) : (fs.run (saveSteps fs f d)) f = some (.whole d) := by
  unfold saveSteps
  rw [run_append]
  simp [FS.run, FS.step, FS.set]

theorem any_clash {k : Kind V} {d : Dict V} {P : String → Prop} (hc : ∀ n, P n → k.clash n = false) (h : ∀ n ∈ d.map (·.1), P n) : (d.any fun p => k.clash p.1) = false := by
  rw [List.any_eq_false]
  intro p hp
  simp [hc p.1 (h p.1 (List.mem_map.mpr ⟨p, hp, rfl⟩))]

theorem cycle_ok (k : Kind V) (fs : FS (Dict V)) (f : String) (hf : f ≠ "" ∧ endsWith f k.suffix = false) (d : Dict V) (hd : d.Ok)
    (hfs : fs (f ++ k.suffix) = some (.whole d)) (ops : List (Use V)) (hc : ∀ n, k.clash n → lastAssigned k n ops = none ∧ d.get n = none) :
    ∃ fs' e, cycle k fs f ops = some fs' ∧ fs' (f ++ k.suffix) = some (.whole e) ∧ e.Ok ∧ (∀ n, e.get n = (lastAssigned k n ops).or (d.get n)) := by
  have ho : Store.open k fs (some f) = .ok ⟨.loaded d, some (f ++ k.suffix), [], [], []⟩ := by
    unfold Store.open
    simp [hf.1, hf.2, hfs]
  obtain ⟨h, h2, h3⟩ := sess_run k ops (fun _ => none) (⟨.loaded d, some (f ++ k.suffix), [], [], []⟩ : Store V) (sess_init k (.loaded d) (some (f ++ k.suffix)))
  simp only [Option.or_none] at h
  unfold cycle
  rw [ho]
  dsimp only
  generalize session k _ ops = s at h h2 h3
  change Sess k d _ s at h
  dsimp only at h2 h3
  have hg := gather_get h hd
  have hn : ((s.gather d).any fun p => k.clash p.1) = false := by
    rw [List.any_eq_false]
    intro p hp hcl
    have h4 := (hg p.1).1
    obtain ⟨q1, q2⟩ := hc p.1 hcl
    rw [q1, q2] at h4
    exact (get_none.mp h4) (List.mem_map.mpr ⟨p, hp, rfl⟩)
  have hne : f ++ k.suffix ≠ "" := by
    intro h'
    have := congrArg String.length h'
    rw [String.length_append] at this
    exact hf.1 (String.length_eq_zero_iff.mp (by rw [String.length_empty] at this; omega))
  have hs : s.saveS k fs none = (saveSteps fs (f ++ k.suffix) (s.gather d), none) := by
    unfold Store.saveS
    rw [h3, h2]
    dsimp only
    unfold writeSteps
    rw [hn, if_neg (by simp), if_neg hne]
  rw [hs]
  exact ⟨_, s.gather d, rfl, save_done _ _ _, (hg "").2, fun n => (hg n).1⟩

/-- **C45 (partial).** Through any number of cycles of opening, reading and assigning in any order, and saving, nothing raises in opening or saving, and the file finally
holds for every name the last value assigned in any of the cycles, else the value archived at the start.  Missing: for `ArrayStore`, attributes called `file`
(see `C45_violated`); and reading back attributes called as the methods (`C45_violated_method`). -/
theorem C45_cycles_partial (k : Kind V) (f : String) (hf : f ≠ "" ∧ endsWith f k.suffix = false) : ∀ (l : List (List (Use V))) (fs : FS (Dict V)) (d : Dict V), d.Ok →
    fs (f ++ k.suffix) = some (.whole d) → (∀ n, k.clash n → lastAssigned k n l.flatten = none ∧ d.get n = none) →
    ∃ fs' e, cycles k fs f l = some fs' ∧ fs' (f ++ k.suffix) = some (.whole e) ∧ ∀ n, e.get n = (lastAssigned k n l.flatten).or (d.get n)
  | [], fs, d, _, hfs, _ => ⟨fs, d, rfl, hfs, by simp [lastAssigned]⟩
  | ops :: l, fs, d, hd, hfs, hc => by
    have happ : ∀ (n : String) (a b : List (Use V)), lastAssigned k n (a ++ b) = (lastAssigned k n b).or (lastAssigned k n a) := by
      intro n a b
      induction a with
      | nil => simp [lastAssigned]
      | cons o a ih =>
        cases o with
        | read m => simpa [lastAssigned] using ih
        | assign m v => simp only [List.cons_append, lastAssigned, ih, Option.or_assoc]
    have hnone : ∀ a b : Option V, a.or b = none ↔ a = none ∧ b = none := by intro a b; cases a <;> simp
    obtain ⟨fs1, e1, c1, c2, c3, c4⟩ := cycle_ok k fs f hf d hd hfs ops (fun n hn => by
      have := hc n hn
      rw [List.flatten_cons, happ, hnone] at this
      exact ⟨this.1.2, this.2⟩)
    obtain ⟨fs2, e2, i1, i2, i3⟩ := C45_cycles_partial k f hf l fs1 e1 c3 c2 (fun n hn => by
      have := hc n hn
      rw [List.flatten_cons, happ, hnone] at this
      exact ⟨this.1.1, by rw [c4, this.1.2, this.2]; rfl⟩)
    refine ⟨fs2, e2, by unfold cycles; rw [c1]; exact i1, i2, fun n => ?_⟩
    rw [i3, c4, List.flatten_cons, happ, Option.or_assoc]

/-- **C45 (partial).** A store begun without a file and saved under a name (with or without suffix) holds exactly what was assigned.
Missing: arrays named `file` (`C45_violated`). -/
theorem C45_new_partial (k : Kind V) (fs : FS (Dict V)) (f : String) (hf : f ++ k.suffix ≠ "") (ops : List (Use V)) (hc : ∀ n, k.clash n → lastAssigned k n ops = none)
    (g : String) (hg : g = f ++ k.suffix ∧ endsWith g k.suffix ∨ g = f ∧ endsWith f k.suffix = false) :
    ∃ s e, Store.open k fs none = .ok s ∧ ((session k s ops).saveS k fs (some g)).2 = none ∧
      (fs.run ((session k s ops).saveS k fs (some g)).1) (f ++ k.suffix) = some (.whole e) ∧ ∀ n, e.get n = lastAssigned k n ops := by
  refine ⟨⟨.none, none, [], [], []⟩, ?_⟩
  obtain ⟨h, h2, h3⟩ := sess_run k ops (fun _ => none) (⟨.none, none, [], [], []⟩ : Store V) (sess_init k .none none)
  simp only [Option.or_none] at h
  generalize session k _ ops = s at h h2 h3
  change Sess k [] _ s at h
  dsimp only at h2 h3
  have hgt := gather_get h (by simp [Dict.Ok] : Dict.Ok ([] : Dict V))
  refine ⟨s.gather [], rfl, ?_⟩
  have hn : ((s.gather []).any fun p => k.clash p.1) = false := by
    rw [List.any_eq_false]
    intro p hp hcl
    have h4 := (hgt p.1).1
    rw [hc p.1 hcl] at h4
    exact (get_none.mp h4) (List.mem_map.mpr ⟨p, hp, rfl⟩)
  have hname : (if endsWith g k.suffix then g else g ++ k.suffix) = f ++ k.suffix := by
    rcases hg with ⟨e, he⟩ | ⟨e, he⟩
    · rw [if_pos he, e]
    · rw [e, he]; simp
  have hs : s.saveS k fs (some g) = (saveSteps fs (f ++ k.suffix) (s.gather []), none) := by
    unfold Store.saveS
    dsimp only
    rw [hname, h2]
    dsimp only
    unfold writeSteps
    rw [hn, if_neg (by simp), if_neg hf]
  rw [hs]
  exact ⟨rfl, save_done _ _ _, fun n => by rw [(hgt n).1]; simp [Dict.get]⟩

/-- **C45 is violated** for an array called `file`: saving raises, and has moved the existing archive away from its name. -/
theorem C45_violated : let k : Kind ℕ := arrayStore fun _ => true
    let fs : FS (Dict ℕ) := fun n => if n = "d.npz" then some (.whole [("a", 1)]) else none
    ∃ s, Store.open k fs (some "d") = .ok s ∧ ((session k s [.assign "file" 2]).saveS k fs none).2 = some .type ∧
      (fs.run ((session k s [.assign "file" 2]).saveS k fs none).1) "d.npz" = none := by
  refine ⟨⟨.loaded [("a", 1)], some "d.npz", [], [], []⟩, rfl, ?_, ?_⟩ <;> decide +kernel

/-- An attribute called as a method is saved but cannot be read back. -/
theorem C45_violated_method : let k : Kind ℕ := attrStore
    let fs : FS (Dict ℕ) := fun n => if n = "d.pkl" then some (.whole [("save", 1)]) else none
    ∃ s, Store.open k fs (some "d") = .ok s ∧ (s.getattr "save").2 = .ok .method := by
  refine ⟨⟨.loaded [("save", 1)], some "d.pkl", [], [], []⟩, rfl, ?_⟩
  decide +kernel

/-- Concrete cases meet the hypotheses: names, a file, two cycles. -/
example : ("d" : String) ≠ "" ∧ endsWith "d" ".npz" = false ∧ endsWith "d.npz" ".npz" = true ∧ Dict.Ok [("a", 1), ("b", 2)] := by
  refine ⟨by decide, by decide, by decide, by simp [Dict.Ok]⟩
example : lastAssigned (attrStore : Kind ℕ) "a" [.assign "a" 1, .read "b", .assign "a" 2, .assign "b" 3] = some 2 := by
  simp [lastAssigned, attrStore]

/-- **C46 is violated.** A store opened by the full name of its file loads nothing: whatever the file holds, reading any attribute that has not been assigned
raises, and so do saving and listing the contents. -/
theorem C46_violated (k : Kind V) (fs : FS (Dict V)) (f : String) (hf : f ≠ "" ∧ endsWith f k.suffix = true) (ops : List (Use V)) (n : String)
    (hn : n ≠ "save" ∧ n ≠ "contents") (ha : lastAssigned k n ops = none) :
    ∃ s, Store.open k fs (some f) = .ok s ∧ ((session k s ops).getattr n).2 = .error .runtime ∧ (session k s ops).saveS k fs none = ([], some .runtime) ∧
      (session k s ops).contents = .error .runtime := by
  refine ⟨⟨.unset, some f, [], [], []⟩, ?_, ?_⟩
  · unfold Store.open
    simp [hf.1, hf.2]
  · obtain ⟨h, h2, h3⟩ := sess_run k ops (fun _ => none) (⟨.unset, some f, [], [], []⟩ : Store V) (sess_init k .unset (some f))
    simp only [Option.or_none] at h
    generalize session k _ ops = s at h h2 h3
    change Sess k [] _ s at h
    dsimp only at h2 h3
    have hi := h.inst n
    have hp : s.pulled.get n = none := by
      cases hp : s.pulled.get n with
      | none => rfl
      | some v => have := h.pulled n v hp; simp [Dict.get] at this
    rw [ha, hp] at hi
    refine ⟨?_, ?_, ?_⟩
    · unfold Store.getattr
      rw [show s.inst.get n = none from hi]
      dsimp only
      rw [if_neg (by simp [classNames, hn.1, hn.2]), h2]
    · unfold Store.saveS
      rw [h3, h2]
    · unfold Store.contents
      rw [h2]

/-- **C46 (partial).** Opened by the name without suffix, the file is loaded: every archived entry can be read.  Missing: the full name. -/
theorem C46_stem_partial (k : Kind V) (fs : FS (Dict V)) (f : String) (hf : f ≠ "" ∧ endsWith f k.suffix = false) (d : Dict V)
    (hfs : fs (f ++ k.suffix) = some (.whole d)) (n : String) (hn : n ≠ "save" ∧ n ≠ "contents") (v : V) (hv : d.get n = some v) :
    ∃ s, Store.open k fs (some f) = .ok s ∧ (s.getattr n).2 = .ok (.value v) := by
  obtain ⟨s, h1, h2⟩ := C45_read_partial k fs f hf d hfs [] n hn
  refine ⟨s, h1, ?_⟩
  simpa [session, lastAssigned, hv] using h2

/-! ### C79 -/

/-- **C79 is violated.** `contents` lists the values, not the names, of the attributes assigned since the store was opened. -/
theorem C79_violated (k : Kind V) (fs : FS (Dict V)) (n : String) (v : V) (hv : k.accepts v = true) :
    ∃ s, Store.open k fs none = .ok s ∧ (session k s [.assign n v]).contents = .ok [.inr v] := by
  refine ⟨_, rfl, ?_⟩
  simp [session, Store.setattr, hv, Store.contents, Dict.set]

/-- **C79 (partial).** As long as nothing has been assigned the list is that of the archived names.  Missing: assigned ones. -/
theorem C79_archived_partial (k : Kind V) (fs : FS (Dict V)) (f : String) (hf : f ≠ "" ∧ endsWith f k.suffix = false) (d : Dict V)
    (hfs : fs (f ++ k.suffix) = some (.whole d)) (names : List String) :
    ∃ s, Store.open k fs (some f) = .ok s ∧ (session k s (names.map .read)).contents = .ok (d.map fun p => .inl p.1) := by
  have ho : Store.open k fs (some f) = .ok ⟨.loaded d, some (f ++ k.suffix), [], [], []⟩ := by
    unfold Store.open
    simp [hf.1, hf.2, hfs]
  refine ⟨_, ho, ?_⟩
  have key : ∀ (names : List String) (s : Store V), s.new = [] → (session k s (names.map .read)).new = [] ∧ (session k s (names.map .read)).arch = s.arch := by
    intro names
    induction names with
    | nil => intro s h; exact ⟨h, rfl⟩
    | cons n names ih =>
      intro s h
      have h1 : (s.getattr n).1.new = [] ∧ (s.getattr n).1.arch = s.arch := by
        unfold Store.getattr
        split
        · exact ⟨h, rfl⟩
        · split_ifs
          · exact ⟨h, rfl⟩
          · split
            · exact ⟨h, rfl⟩
            · exact ⟨h, rfl⟩
            · split
              · exact ⟨h, rfl⟩
              · exact ⟨h, rfl⟩
      obtain ⟨i1, i2⟩ := ih (s.getattr n).1 h1.1
      exact ⟨i1, i2.trans h1.2⟩
  obtain ⟨h1, h2⟩ := key names ⟨.loaded d, some (f ++ k.suffix), [], [], []⟩ rfl
  unfold Store.contents
  rw [h1, h2]
  simp

end

/-! ### C47 -/

section
variable {T : Type*}

/-- A word: not empty, without white space. -/
def Word (w : List Char) : Prop := w ≠ [] ∧ ∀ c ∈ w, isWS c = false

/-- A line laying out words: any amount of white space before, at least one between, any amount after. -/
inductive Layout : List Char → List (List Char) → Prop
  | blank (l : List Char) : (∀ c ∈ l, isWS c = true) → Layout l []
  | last (p w : List Char) : (∀ c ∈ p, isWS c = true) → Word w → Layout (p ++ w) [w]
  | more (p w : List Char) (c : Char) (l : List Char) (ws : List (List Char)) : (∀ c ∈ p, isWS c = true) → Word w → isWS c = true → Layout l ws →
      Layout (p ++ w ++ c :: l) (w :: ws)

theorem split_ws (c : Char) (l : List Char) (h : isWS c = true) : splitWords (c :: l) = splitWords l := by
  cases l <;> simp [splitWords, h]

theorem split_end (a c : Char) (l : List Char) (ha : isWS a = false) (hc : isWS c = true) : splitWords (a :: c :: l) = [a] :: splitWords l := by
  rw [splitWords.eq_def]
  simp [ha, hc, split_ws c l hc]

theorem split_cons (a b : Char) (l : List Char) (ha : isWS a = false) (hb : isWS b = false) (w : List Char) (ws : List (List Char)) (h : splitWords (b :: l) = w :: ws) :
    splitWords (a :: b :: l) = (a :: w) :: ws := by
  rw [splitWords.eq_def]
  simp [ha, hb, h]

theorem split_skip : ∀ (p l : List Char), (∀ c ∈ p, isWS c = true) → splitWords (p ++ l) = splitWords l
  | [], _, _ => rfl
  | a :: p, l, h => by
    show splitWords (a :: (p ++ l)) = _
    rw [split_ws _ _ (h a (by simp)), split_skip p l fun c hc => h c (by simp [hc])]

theorem split_word : ∀ (w : List Char) (c : Char) (l : List Char), Word w → isWS c = true → splitWords (w ++ c :: l) = w :: splitWords l
  | [], _, _, h, _ => absurd rfl h.1
  | [a], c, l, h, hc => by
    have ha := h.2 a (by simp)
    show splitWords (a :: c :: l) = _
    exact split_end a c l ha hc
  | a :: b :: w, c, l, h, hc => by
    have ha := h.2 a (by simp)
    have hb := h.2 b (by simp)
    have ih := split_word (b :: w) c l ⟨by simp, fun x hx => h.2 x (by simp at hx ⊢; tauto)⟩ hc
    show splitWords (a :: b :: (w ++ c :: l)) = _
    exact split_cons a b _ ha hb _ _ ih

theorem split_last : ∀ w : List Char, Word w → splitWords w = [w]
  | [], h => absurd rfl h.1
  | [a], h => by simp [splitWords, h.2 a (by simp)]
  | a :: b :: w, h => by
    have ih := split_last (b :: w) ⟨by simp, fun x hx => h.2 x (by simp at hx ⊢; tauto)⟩
    exact split_cons a b w (h.2 a (by simp)) (h.2 b (by simp)) _ _ ih

/-- Splitting finds the words laid out. -/
theorem split_layout {l : List Char} {ws : List (List Char)} (h : Layout l ws) : splitWords l = ws := by
  induction h with
  | blank l hl => have := split_skip l [] hl; rw [List.append_nil] at this; rw [this]; rfl
  | last p w hp hw => rw [split_skip _ _ hp, split_last w hw]
  | more p w c l ws hp hw hc _ ih => rw [List.append_assoc, split_skip _ _ hp, split_word w c l hw hc, ih]

theorem addRow_ok : ∀ (types : List (List Char → Except Err T)) (ws : List (List Char)) (cols : List (List T)) (val : ℕ → T), cols.length = types.length →
    (∀ i (hi : i < types.length), ∃ w, ws[i]? = some w ∧ types[i] w = .ok (val i)) →
    ∃ cols', addRow types ws cols = .ok cols' ∧ cols'.length = types.length ∧ ∀ i c, cols[i]? = some c → cols'[i]? = some (c ++ [val i])
  | [], _, cols, val, hc, _ => ⟨cols, rfl, hc, fun i c h => by
      have : cols = [] := List.eq_nil_of_length_eq_zero hc
      rw [this] at h; simp at h⟩
  | t :: ts, ws, cols, val, hc, h => by
    obtain ⟨w, e1, e3⟩ := h 0 (by simp)
    rcases ws with _ | ⟨w', ws⟩
    · simp at e1
    rcases cols with _ | ⟨c, cols⟩
    · simp at hc
    simp at e1 e3 hc
    subst e1
    obtain ⟨cols', i1, i2, i3⟩ := addRow_ok ts ws cols (fun i => val (i + 1)) hc (fun i hi => by
      obtain ⟨w, q1, q3⟩ := h (i + 1) (by simpa using hi)
      exact ⟨w, by simpa using q1, by simpa using q3⟩)
    refine ⟨(c ++ [val 0]) :: cols', by simp [addRow, e3, i1], by simp [i2], ?_⟩
    intro i d hd
    cases i with
    | zero => simp at hd; simp [hd]
    | succ i => simp at hd; simpa using i3 i d hd

theorem readLines_ok (types : List (List Char → Except Err T)) (val : List (List Char) → ℕ → T) : ∀ (lines : List (List Char)) (rows : List (List (List Char))) (cols : List (List T)),
    cols.length = types.length → List.Forall₂ Layout lines rows → (∀ r ∈ rows, ∀ i (hi : i < types.length), ∃ w, r[i]? = some w ∧ types[i] w = .ok (val r i)) →
    ∃ cols', readLines types lines cols = .ok cols' ∧ cols'.length = types.length ∧ ∀ i c, cols[i]? = some c → cols'[i]? = some (c ++ rows.map fun r => val r i)
  | [], [], cols, hc, _, _ => ⟨cols, rfl, hc, by simp⟩
  | [], _ :: _, _, _, h, _ => by cases h
  | _ :: _, [], _, _, h, _ => by cases h
  | l :: lines, r :: rows, cols, hc, h, hv => by
    cases h with
    | cons h1 h2 =>
    obtain ⟨cols1, i1, i2, i3⟩ := addRow_ok types r cols (val r) hc (hv r (by simp))
    obtain ⟨cols2, j1, j2, j3⟩ := readLines_ok types val lines rows cols1 i2 h2 fun r' hr' => hv r' (by simp [hr'])
    refine ⟨cols2, by simp [readLines, split_layout h1, i1, j1], j2, fun i c hi => ?_⟩
    rw [j3 i _ (i3 i c hi)]
    simp

/-- **C47 (partial).** For lines laying out rows of words, each with at least as many words as there are types, all convertible, the reader returns as many columns as
types, the `i`th being the conversions of the `i`th words of all lines, in order.  Missing: the default `as_arrays=True` (see `C47_violated`). -/
theorem C47_columns_partial (types : List (List Char → Except Err T)) (lines : List (List Char)) (rows : List (List (List Char))) (val : List (List Char) → ℕ → T)
    (hl : List.Forall₂ Layout lines rows) (hv : ∀ r ∈ rows, ∀ i (hi : i < types.length), ∃ w, r[i]? = some w ∧ types[i] w = .ok (val r i)) :
    ∃ cols, readColumns lines types false = .ok cols ∧ cols.length = types.length ∧ ∀ i < types.length, cols[i]? = some (rows.map fun r => val r i) := by
  obtain ⟨cols, h1, h2, h3⟩ := readLines_ok types val lines rows (types.map fun _ => []) (by simp) hl hv
  refine ⟨cols, by unfold readColumns; rw [h1]; rfl, h2, fun i hi => ?_⟩
  have := h3 i [] (by simp [hi])
  simpa using this

theorem addRow_short : ∀ (types : List (List Char → Except Err T)) (ws : List (List Char)) (cols : List (List T)), ws.length < types.length → ∃ e, addRow types ws cols = .error e
  | [], _, _, h => by simp at h
  | _ :: _, [], _, _ => ⟨_, rfl⟩
  | _ :: _, _ :: _, [], _ => ⟨_, rfl⟩
  | t :: ts, w :: ws, c :: cs, h => by
    obtain ⟨e, he⟩ := addRow_short ts ws cs (by simpa using h)
    unfold addRow
    cases t w with
    | error e => exact ⟨e, rfl⟩
    | ok x => simp [he]

/-- **C47.** A line with fewer words than types (a blank line, for instance) makes the reader raise, wherever it is. -/
theorem C47_short (types : List (List Char → Except Err T)) (lines : List (List Char)) (asArrays : Bool) (l : List Char) (ws : List (List Char))
    (hl : l ∈ lines) (hw : Layout l ws) (hs : ws.length < types.length) : ∃ e, readColumns lines types asArrays = .error e := by
  have key : ∀ (lines : List (List Char)) (cols : List (List T)), l ∈ lines → ∃ e, readLines types lines cols = .error e := by
    intro lines
    induction lines with
    | nil => intro cols h; simp at h
    | cons l' lines ih =>
      intro cols h
      unfold readLines
      cases ha : addRow types (splitWords l') cols with
      | error e => exact ⟨e, rfl⟩
      | ok cols' =>
        rcases List.mem_cons.mp h with rfl | h
        · rw [split_layout hw] at ha
          obtain ⟨e, he⟩ := addRow_short types ws cols hs
          rw [he] at ha
          cases ha
        · exact ih cols' h
  obtain ⟨e, he⟩ := key lines (types.map fun _ => []) hl
  exact ⟨e, by unfold readColumns; rw [he]⟩

/-- **C47 is violated** by default: with arrays asked for, reading at least one column always raises. -/
theorem C47_violated (types : List (List Char → Except Err T)) (lines : List (List Char)) (h : types ≠ []) : ∃ e, readColumns lines types true = .error e := by
  unfold readColumns
  cases readLines types lines (types.map fun _ => []) with
  | error e => exact ⟨e, rfl⟩
  | ok cols =>
    cases types with
    | nil => exact absurd rfl h
    | cons t ts => exact ⟨.name, rfl⟩

/-- A line such as " 1 22\n" lays out its two words, and a concrete file is read. -/
example : Layout [' ', '1', ' ', '2', '2', '\n'] [['1'], ['2', '2']] := by
  refine Layout.more [' '] ['1'] ' ' ['2', '2', '\n'] [['2', '2']] (by decide) ⟨by simp, by decide⟩ (by decide) ?_
  exact Layout.more [] ['2', '2'] '\n' [] [] (by simp) ⟨by simp, by decide⟩ (by decide) (Layout.blank [] (by simp))
example : readColumns [[' ', '1', ' ', '2', '2', '\n'], ['3', '\t', '4', '4', '4']] [fun w => .ok w.length, fun w => .ok (10 * w.length)] false = .ok [[1, 1], [20, 30]] := by
  rfl

end

end Verif.Files
