import Verif.Common
import Mathlib.Data.List.Basic

/-!
# Giving data to a Gaussian predictor: the model

Models `SampledGaussian.__init__` and `set_data` of package/inference/pie/gaussian.py for arbitrary arguments.  Of an argument the model keeps what the code looks at: whether it is a number, a
list, or a NumPy array with one, two or more dimensions.  Arrays without dimensions, and lists of numbers mixed with lists, are not modelled.  Copies are not told from references.
-/

namespace Verif.Pie.SetData

/-- An argument: a number, a list of numbers, a list of rows, arrays of one and two dimensions (with the number of columns), and arrays of more dimensions (with the length). -/
inductive Val (K : Type)
  | num (x : K)
  | list (l : List K)
  | rows (l : List (List K))
  | arr (l : List K)
  | table (cols : ℕ) (l : List (List K))
  | deep (n : ℕ)
deriving DecidableEq

variable {K : Type}

/-- `len(x)`: a number has none. -/
def Val.len : Val K → Except Err ℕ
  | .num _ => .error .type
  | .list l => .ok l.length
  | .rows l => .ok l.length
  | .arr l => .ok l.length
  | .table _ l => .ok l.length
  | .deep n => .ok n

/-- `len(x.shape)`: only arrays have a shape. -/
def Val.ndim : Val K → Except Err ℕ
  | .arr _ => .ok 1
  | .table _ _ => .ok 2
  | .deep _ => .ok 3
  | _ => .error .attribute

/-- The attributes of a `SampledGaussian` that `set_data` reads or assigns; `none` if there is no such attribute.  `xlocns`, `xvals`, `xsigmas` are those without a leading underscore. -/
structure Pred (K : Type) where
  locns : Option (Val K) := none
  vals : Option (Val K) := none
  sigmas : Option (Val K) := none
  xlocns : Option (Val K) := none
  xvals : Option (Val K) := none
  xsigmas : Option (Val K) := none
  ndata : Option ℕ := none
  dimen : Option ℕ := none

/-- Column `j` of a table. -/
def column [Zero K] (l : List (List K)) (j : ℕ) : List K := l.map fun r => r.getD j 0

/-- The end of `set_data`: gaussian.py:278-284. -/
def Pred.finish (p : Pred K) : Res (Pred K) :=
  match p.vals with
  | none => raise .attribute p
  | some v =>
    match v.len with
    | .error e => raise e p
    | .ok n =>
      let p := { p with ndata := some n }
      match p.locns with
      | none => raise .attribute p
      | some l =>
        match l.ndim with
        | .error e => raise e p
        | .ok 1 => ok { p with dimen := some 1 }
        | .ok 2 =>
          -- self.locns.shape[1]
          match p.xlocns with
          | none => raise .attribute p
          | some (.table c _) => ok { p with dimen := some c }
          | some (.arr _) => raise .index p
          | some (.deep _) => ok { p with dimen := some 0 }
          | some _ => raise .attribute p
        | .ok _ => raise .data p

/-- `for row in all: … .append(row[0]) …` with the rows that are left: gaussian.py:266-270; the lists are attributes of the object. -/
def Pred.rowLoop (p : Pred K) : List (List K) → List K → List K → List K → Res (Pred K)
  | [], a, b, c => ok { p with locns := some (.list a), vals := some (.list b), sigmas := some (.list c) }
  | (x :: y :: z :: _) :: l, a, b, c => p.rowLoop l (a ++ [x]) (b ++ [y]) (c ++ [z])
  | [x, y] :: _, a, b, c => raise .index { p with locns := some (.list (a ++ [x])), vals := some (.list (b ++ [y])), sigmas := some (.list c) }
  | [x] :: _, a, b, c => raise .index { p with locns := some (.list (a ++ [x])), vals := some (.list b), sigmas := some (.list c) }
  | [] :: _, a, b, c => raise .index { p with locns := some (.list a), vals := some (.list b), sigmas := some (.list c) }

/-- `self._locns = array(self.locns)` and so on: gaussian.py:271-273. -/
def Pred.convert (p : Pred K) : Res (Pred K) :=
  match p.xlocns with
  | none => raise .attribute p
  | some a =>
    let p := { p with locns := some a }
    match p.xvals with
    | none => raise .attribute p
    | some b =>
      let p := { p with vals := some b }
      match p.xsigmas with
      | none => raise .attribute p
      | some c => ok { p with sigmas := some c }

/-- `set_data(a, b, c)`: gaussian.py:249-253. -/
def Pred.set3 (p : Pred K) (a b c : Val K) : Res (Pred K) :=
  let p := { p with locns := some a, vals := some b, sigmas := some c }
  match a.len, b.len, c.len with
  | .error e, _, _ => raise e p
  | .ok _, .error e, _ => raise e p
  | .ok n, .ok m, r =>
    if n ≠ m then raise .data p
    else
      match r with
      | .error e => raise e p
      | .ok k => if m ≠ k then raise .data p else ok p

/-- `set_data(all)`: gaussian.py:254-275. -/
def Pred.set1 [Zero K] (p : Pred K) : Val K → Res (Pred K)
  | .table c l =>
    if c = 0 then raise .data p
    else if c = 1 then raise .data { p with xlocns := some (.arr (column l 0)) }
    else if c = 2 then raise .data { p with xlocns := some (.arr (column l 0)), xvals := some (.arr (column l 1)) }
    else ok { p with xlocns := some (.arr (column l 0)), xvals := some (.arr (column l 1)), xsigmas := some (.arr (column l 2)) }
  | .arr _ => raise .data p
  | .deep _ => raise .data p
  | .num _ => raise .type { p with locns := some (.list []), vals := some (.list []), sigmas := some (.list []) }
  | .list [] => (p.rowLoop [] [] [] []).andThen Pred.convert
  | .list (_ :: _) => raise .type { p with locns := some (.list []), vals := some (.list []), sigmas := some (.list []) }
  | .rows l => (p.rowLoop l [] [] []).andThen Pred.convert

/-- `set_data(*args)`: gaussian.py:239-284. -/
def Pred.setData [Zero K] (p : Pred K) (args : List (Val K)) : Res (Pred K) :=
  (match args with
  | [a, b, c] => p.set3 a b c
  | [a] => p.set1 a
  | _ => ok p).andThen Pred.finish

/-- `SampledGaussian(*args)`: gaussian.py:225-237. -/
def make [Zero K] (args : List (Val K)) : Res (Pred K) :=
  match args with
  | [] => raise .notImplemented {}
  | args => Pred.setData {} args

/-- A history of calls of `set_data`; the user catches every exception and goes on. -/
def Pred.run [Zero K] (p : Pred K) (calls : List (List (Val K))) : Pred K := calls.foldl (fun p a => (p.setData a).1) p

end Verif.Pie.SetData
