import Verif.Common
import Mathlib.Data.Nat.Notation

/-!
# Files with backups, saved generator states, stores, column files

Model of `package/inference/utils/ioutils.py` and `package/inference/utils/rng.py`.

The file system is a map from names to contents.  A call is a list of atomic steps; a process that dies leaves a prefix of them done.  Renaming replaces an existing
target, as on POSIX systems.  Directories, permissions, full disks and other processes are not modelled.
-/

set_option linter.unusedSectionVars false

namespace Verif.Files

/-- What a file holds: nothing usable yet (created, writing not finished), or a complete content. -/
inductive File (α : Type*)
  | torn
  | whole (a : α)
deriving DecidableEq

/-- The file system. -/
abbrev FS (α : Type*) := String → Option (File α)

variable {α : Type*}

/-- Giving one name a new value. -/
def FS.set (fs : FS α) (n : String) (v : Option (File α)) : FS α := fun m => if m = n then v else fs m

/-- The atomic steps. -/
inductive Step (α : Type*)
  | rename (a b : String)
  | create (a : String)
  | write (a : String) (c : α)

/-- Effect of a step (`os.rename`, `open(…, 'w')`, writing and closing).  Renaming is only ever done after a check that the source exists. -/
def FS.step (fs : FS α) : Step α → FS α
  | .rename a b => (fs.set b (fs a)).set a none
  | .create a => fs.set a (some .torn)
  | .write a c => fs.set a (some (.whole c))

/-- Effect of several steps. -/
def FS.run (fs : FS α) (l : List (Step α)) : FS α := l.foldl FS.step fs

/-- The steps of `backup(fname)`: ioutils.py:8-20, with the suffix of backups as a parameter (the code in rng.py:23-28 is the same with other suffixes). -/
def backupSteps (fs : FS α) (fname bname bbname : String) : List (Step α) :=
  if (fs fname).isSome then
    (if (fs bname).isSome then [.rename bname bbname] else []) ++ [.rename fname bname]
  else []

/-- `fname + '%'`, `bname + '%'`: ioutils.py:16, 18. -/
def bak (f : String) : String := f ++ "%"
def bak2 (f : String) : String := f ++ "%" ++ "%"

/-- `backup(fname)`: ioutils.py:8-20. -/
def backup (fs : FS α) (fname : String) : List (Step α) := backupSteps fs fname (bak fname) (bak2 fname)

/-- `safe_open(fname, …)` followed by writing `c` and closing: ioutils.py:22-45, 311-313; `backup(fname); savez(fname, …)` takes the same steps: ioutils.py:192-193. -/
def saveSteps (fs : FS α) (fname : String) (c : α) : List (Step α) := backup fs fname ++ [.create fname, .write fname c]

/-! ### The state of the random number generator -/

/-- `save_rng(fname)`: rng.py:9-29.  The state `st` is `none` if the generator in use is not the Mersenne twister.  The file is opened in text mode and
`pickle.dump` writes bytes: on Python 3 this raises `TypeError` before anything has been written. -/
def saveRng (fs : FS α) (fname : String) (st : Option α) : FS α × Option Err :=
  match st with
  | none => (fs, some .runtime)
  | some _ =>
    let fs := fs.run (backupSteps fs fname (fname ++ ".1") (fname ++ ".2"))
    let fs := fs.step (.create fname)
    (fs, some .type)

/-- `restore_rng(fname)`: rng.py:31-51, returning the state set, if any.  `pickle.load` from a file in text mode raises (`TypeError`, or `UnicodeDecodeError`, a
`ValueError`, depending on the bytes: `TypeError` here).  Access rights are taken to be granted. -/
def restoreRng (fs : FS α) (fname : String) (st : Option α) : FS α × Except Err (Option α) :=
  match fs fname with
  | some _ => (fs, .error .type)
  | none =>
    match saveRng fs fname st with
    | (fs, some e) => (fs, .error e)
    | (fs, none) => (fs, .ok none)

/-! ### Stores -/

/-- Python dictionaries with string keys, in order of insertion. -/
abbrev Dict (V : Type*) := List (String × V)

variable {V : Type*}

/-- `d[k]` -/
def Dict.get (d : Dict V) (k : String) : Option V := (d.find? (·.1 = k)).map (·.2)

/-- `d[k] = v` -/
def Dict.set : Dict V → String → V → Dict V
  | [], k, v => [(k, v)]
  | (k', v') :: d, k, v => if k' = k then (k, v) :: d else (k', v') :: Dict.set d k v

/-- The two classes of stores: the suffix of their files, the values accepted, the names that cannot be saved, and the file written when saving with an empty name. -/
structure Kind (V : Type*) where
  suffix : String
  accepts : V → Bool
  clash : String → Bool
  anon : Option String

/-- `ArrayStore`: only arrays are accepted, and a name equal to that of the first parameter of `savez` cannot be passed as a keyword.  `savez` adds the suffix to a name without it. -/
def arrayStore (isArray : V → Bool) : Kind V := ⟨".npz", isArray, fun n => n == "file", some ".npz"⟩

/-- `AttrStore`.  Opening a file with an empty name fails. -/
def attrStore : Kind V := ⟨".pkl", fun _ => true, fun _ => false, none⟩

/-- `f.endswith(suffix)` -/
def endsWith (f suffix : String) : Bool := suffix.toList.isSuffixOf f.toList

/-- The archive attribute (`_npz`, `_archive`): never set, `None`, or loaded. -/
inductive Arch (V : Type*)
  | unset
  | none
  | loaded (d : Dict V)

/-- A store: `inst` is the part of the instance dictionary with names not starting with an underscore, `pulled` is `_archived` or `_pulled`. -/
structure Store (V : Type*) where
  arch : Arch V
  fname : Option String
  pulled : Dict V
  new : Dict V
  inst : Dict V

/-- `ArrayStore(fname)`, `AttrStore(fname)`: ioutils.py:102-117, 232-249 (without keywords: these are assignments that follow).  An empty name counts as none.  A file
that is not complete cannot be loaded (the exception depends on the case; `ValueError` here). -/
def Store.open (k : Kind V) (fs : FS (Dict V)) (fname : Option String) : Except Err (Store V) :=
  match fname with
  | none => .ok ⟨.none, none, [], [], []⟩
  | some f =>
    if f = "" then .ok ⟨.none, some "", [], [], []⟩
    else if endsWith f k.suffix then .ok ⟨.unset, some f, [], [], []⟩
    else
      match fs (f ++ k.suffix) with
      | none => .error .io
      | some .torn => .error .value
      | some (.whole d) => .ok ⟨.loaded d, some (f ++ k.suffix), [], [], []⟩

/-- Names found on the class before `__getattr__` is called (others start with an underscore). -/
def classNames : List String := ["save", "contents"]

/-- What reading an attribute gives. -/
inductive Got (V : Type*)
  | value (v : V)
  | method
deriving DecidableEq

/-- `store.name` for a name not starting with an underscore: ioutils.py:119-137, 251-269.  If `_npz` was never set, looking for it calls `__getattr__` again and again:
`RecursionError`, a `RuntimeError`. -/
def Store.getattr (s : Store V) (n : String) : Store V × Except Err (Got V) :=
  match s.inst.get n with
  | some v => (s, .ok (.value v))
  | none =>
    if n ∈ classNames then (s, .ok .method)
    else
      match s.arch with
      | .unset => (s, .error .runtime)
      | .none => (s, .error .attribute)
      | .loaded d =>
        match d.get n with
        | some v => ({ s with inst := s.inst.set n v, pulled := s.pulled.set n v }, .ok (.value v))
        | none => (s, .error .attribute)

/-- `store.name = value` for a name not starting with an underscore: ioutils.py:139-158, 271-289. -/
def Store.setattr (k : Kind V) (s : Store V) (n : String) (v : V) : Res (Store V) :=
  if k.accepts v then ({ s with new := s.new.set n v, inst := s.inst.set n v }, none) else (s, some .value)

/-- Adding the entries of one dictionary to another: the loops of `save`. -/
def Dict.addAll (d e : Dict V) : Dict V := e.foldl (fun d p => d.set p.1 p.2) d

/-- The dictionary gathered by `save`: ioutils.py:181-191, 305-315. -/
def Store.gather (s : Store V) (arch : Dict V) : Dict V :=
  let d := Dict.addAll [] s.pulled
  let d := Dict.addAll d (arch.filter fun p => (s.pulled.get p.1).isNone)
  Dict.addAll d s.new

/-- Writing the dictionary: ioutils.py:192-193, 316-318.  `savez` raises `TypeError` for a clashing keyword, after the existing files have been renamed. -/
def writeSteps (k : Kind V) (fs : FS (Dict V)) (f : String) (d : Dict V) : List (Step (Dict V)) × Option Err :=
  if d.any fun p => k.clash p.1 then (backup fs f, some .type)
  else if f = "" then
    match k.anon with
    | none => ([], some .io)
    | some a => ([.create a, .write a d], none)
  else (saveSteps fs f d, none)

/-- `save(fname)`: ioutils.py:160-193, 291-318, as the steps taken and the exception raised at the end, if any.  No name given now or when the store was created:
`ValueError`. -/
def Store.saveS (k : Kind V) (fs : FS (Dict V)) (s : Store V) (fname : Option String) : List (Step (Dict V)) × Option Err :=
  match (match fname with
    | none => s.fname
    | some f => some (if endsWith f k.suffix then f else f ++ k.suffix)) with
  | none => ([], some .value)
  | some f =>
    match s.arch with
    | .unset => ([], some .runtime)
    | .none => writeSteps k fs f (s.gather [])
    | .loaded a => writeSteps k fs f (s.gather a)

/-- `contents()`: ioutils.py:195-205, 320-330: names of archived entries, then the *values* of new ones. -/
def Store.contents (s : Store V) : Except Err (List (String ⊕ V)) :=
  match s.arch with
  | .unset => .error .runtime
  | .none => .ok (s.new.map fun p => .inr p.2)
  | .loaded d => .ok (d.map (fun p => .inl p.1) ++ s.new.map fun p => .inr p.2)

/-! ### Column files -/

/-- White space, as for `str.split()` on ASCII text. -/
def isWS (c : Char) : Bool := c == ' ' || c == '\t' || c == '\n' || c == '\r' || c == '\x0b' || c == '\x0c'

/-- `line.strip().split()`, on the characters of the line: the maximal runs of characters other than white space. -/
def splitWords : List Char → List (List Char)
  | [] => []
  | c :: l =>
    if isWS c then splitWords l
    else
      match l with
      | [] => [[c]]
      | c' :: _ => if isWS c' then [c] :: splitWords l else
        match splitWords l with
        | [] => [[c]]
        | w :: ws => (c :: w) :: ws

/-- The loop over the columns for one line, returning the new columns: ioutils.py:73-74.  (On an error the columns are lost with the exception.) -/
def addRow {T : Type*} : List (List Char → Except Err T) → List (List Char) → List (List T) → Except Err (List (List T))
  | [], _, cols => .ok cols
  | _ :: _, [], _ => .error .index
  | _ :: _, _ :: _, [] => .error .index
  | t :: ts, w :: ws, c :: cs =>
    match t w with
    | .error e => .error e
    | .ok x =>
      match addRow ts ws cs with
      | .error e => .error e
      | .ok cs => .ok ((c ++ [x]) :: cs)

/-- The loop over the lines: ioutils.py:71-74. -/
def readLines {T : Type*} (types : List (List Char → Except Err T)) : List (List Char) → List (List T) → Except Err (List (List T))
  | [], cols => .ok cols
  | line :: lines, cols =>
    match addRow types (splitWords line) cols with
    | .error e => .error e
    | .ok cols => readLines types lines cols

/-- `read_column_vectors(dfile, types, as_arrays)`: ioutils.py:47-79, on the lines of the file.  The module does not import `array`: `NameError` if there is a column. -/
def readColumns {T : Type*} (lines : List (List Char)) (types : List (List Char → Except Err T)) (asArrays : Bool) : Except Err (List (List T)) :=
  match readLines types lines (types.map fun _ => []) with
  | .error e => .error e
  | .ok cols => if asArrays && !types.isEmpty then .error .name else .ok cols

end Verif.Files
