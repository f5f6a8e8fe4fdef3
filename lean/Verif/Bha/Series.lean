import Verif.Bha.Bha
import Mathlib.Data.Real.Sqrt

/-!
# Bayesian harmonic analysis: the objects

Models sandbox/bha/USTimeSeries.py and the classes of sandbox/bha/bha.py.  The fast Fourier transform of the library is modelled by its definition; arithmetic is exact.  Printing is not modelled.
-/

set_option linter.unusedSectionVars false

namespace Verif.Bha

open Real Verif.Vba

/-- `round(x)` of Python 2: to the nearest integer, halves away from zero. -/
noncomputable def pyRound (x : ℝ) : ℤ := if 0 ≤ x then ⌊x + 1 / 2⌋ else -⌊-x + 1 / 2⌋

/-- `int(x)`, and storing `x` in an array of integers: truncation. -/
noncomputable def pyTrunc (x : ℝ) : ℤ := if 0 ≤ x then ⌊x⌋ else -⌊-x⌋

/-- A time series that has been transformed: the samples, the sampling interval, whether that is an integer object, and the size of the transform. -/
structure Series where
  n : ℕ
  samples : ℕ → ℝ
  dt : ℝ
  dtInt : Bool
  nfft : ℕ

/-- `transform(oversamp)`: USTimeSeries.py:38-52. -/
noncomputable def transform (n : ℕ) (samples : ℕ → ℝ) (dt : ℝ) (dtInt : Bool) (oversamp : ℝ) : Except Err Series :=
  if oversamp < 1 then .error .value else .ok ⟨n, samples, dt, dtInt, ⌊n * oversamp⌋₊⟩

/-- The number of frequencies: USTimeSeries.py:45. -/
def Series.nfreq (t : Series) : ℕ := t.nfft / 2 + 1

/-- `self.real[k]`: USTimeSeries.py:46-49 (samples after the last are zero). -/
noncomputable def Series.re (t : Series) (k : ℕ) : ℝ := ∑ j ∈ Finset.range t.n, t.samples j * cos (2 * π * k * j / t.nfft)

/-- `self.imag[k]`: USTimeSeries.py:46-50, with the negative exponent. -/
noncomputable def Series.im (t : Series) (k : ℕ) : ℝ := -∑ j ∈ Finset.range t.n, t.samples j * sin (2 * π * k * j / t.nfft)

/-- Where index `i` of an array with `len` members points. -/
def pyIndex (len : ℕ) (i : ℤ) : Except Err ℕ :=
  if 0 ≤ i then (if i < len then .ok i.toNat else .error .index)
  else if 0 ≤ i + len then .ok (i + len).toNat else .error .index

/-- Where the slice `[a:b]` of an array with `len` members points. -/
def pySlice (len : ℕ) (a b : ℤ) : List ℕ :=
  let clamp := fun c : ℤ => (if c < 0 then max 0 (c + len) else min c len).toNat
  List.range' (clamp a) (clamp b - clamp a)

/-- `f_index(f)`: USTimeSeries.py:62-67. -/
noncomputable def Series.fIndex (t : Series) (f : ℝ) : ℤ := pyRound (t.nfft * f * t.dt)

/-- `i/(self.dt*self.n_fft)`: USTimeSeries.py:76, 91.  The division of integers rounds down. -/
noncomputable def Series.freq (t : Series) (i : ℤ) : ℝ := if t.dtInt then ⌊(i : ℝ) / (t.dt * t.nfft)⌋ else (i : ℝ) / (t.dt * t.nfft)

/-- `f_info(f)`: USTimeSeries.py:69-78, without the power. -/
noncomputable def Series.fInfo (t : Series) (f : ℝ) : Except Err (ℝ × ℝ × ℝ) :=
  let i := t.fIndex f
  let ff := t.freq i
  match pyIndex t.nfreq i with
  | .error e => .error e
  | .ok k => .ok (ff, t.re k, t.im k)

/-- `bracket3(f)`: USTimeSeries.py:80-94. -/
noncomputable def Series.bracket3 (t : Series) (f : ℝ) : List ℝ × List ℝ × List ℝ :=
  let i0 := t.fIndex f
  let i0 := if i0 = 0 then 0 else if i0 = (t.nfreq : ℤ) - 1 then (t.nfreq : ℤ) - 3 else i0 - 1
  let ks := pySlice t.nfreq i0 (i0 + 3)
  ([0, 1, 2].map fun a : ℤ => t.freq (i0 + a), ks.map t.re, ks.map t.im)

/-- `realDTFT(f)`: USTimeSeries.py:96-101. -/
noncomputable def Series.realDTFT (t : Series) (f : ℝ) : ℝ := ∑ j ∈ Finset.range t.n, cos (2 * π * f * j * t.dt) * t.samples j

/-- `imagDTFT(f)`: USTimeSeries.py:103-110. -/
noncomputable def Series.imagDTFT (t : Series) (f : ℝ) : ℝ := -∑ j ∈ Finset.range t.n, sin (2 * π * f * j * t.dt) * t.samples j

/-- `qinterp(x, xvals, yvals)`: bha.py:6-17. -/
noncomputable def qinterp (x : ℝ) (xvals yvals : List ℝ) : Except Err ℝ :=
  match xvals, yvals with
  | [x0, x1, x2], [y0, y1, y2] =>
    if x < x0 ∨ x > x2 then .error .value
    else
      let d0 := x - x0
      let d1 := x - x1
      let d2 := x - x2
      let x01 := x0 - x1
      let x02 := x0 - x2
      let x12 := x1 - x2
      .ok (y0 * d1 * d2 / (x01 * x02) - y1 * d0 * d2 / (x01 * x12) + y2 * d0 * d1 / (x02 * x12))
  | _, _ => .error .value

/-- How a `Multiplet` gets its projections: its arguments `interp` and `exact`. -/
inductive Mode where
  | exact
  | interp
  | grid
deriving DecidableEq

/-- The turn of the loops over the frequencies for one of them: bha.py:138-157.  The frequency used and the projections on the cosine and the sine.  `ints`: the list of frequencies holds only integers, so that the array made from it does. -/
noncomputable def projAt (t : Series) (mode : Mode) (ints : Bool) (f : ℝ) : Except Err (ℝ × ℝ × ℝ) :=
  match mode with
  | .exact => .ok (f, t.realDTFT f, -t.imagDTFT f)
  | .interp =>
    let b := t.bracket3 f
    match qinterp f b.1 b.2.1 with
    | .error e => .error e
    | .ok c => match qinterp f b.1 (b.2.2.map Neg.neg) with
      | .error e => .error e
      | .ok s => .ok (f, c, s)
  | .grid =>
    match t.fInfo f with
    | .error e => .error e
    | .ok (ff, rl, im) => .ok (if ints then (pyTrunc ff : ℝ) else ff, rl, -im)

/-- What an analysis leaves: bha.py:158-173 and 63-71. -/
structure Fit where
  flist : List ℝ
  stats : Stats
  jac : ℝ
  varest : ℝ
  varerr : ℝ
  hamps : List ℝ

/-- The array of projections. -/
def prjxns (l : List (ℝ × ℝ × ℝ)) : Arr1 := fun p => if p % 2 = 0 then (l.getD (p / 2) (0, 0, 0)).2.1 else (l.getD (p / 2) (0, 0, 0)).2.2

/-- The amplitudes of the sinusoids: bha.py:69-71, 168-173. -/
noncomputable def hampsOf (m : ℕ) (A : Arr1) : List ℝ := (List.range m).map fun i => √(A (2 * i) ^ 2 + A (2 * i + 1) ^ 2)

/-- `Multiplet.analyze(flist)`: bha.py:129-173.  A quotient by zero is zero here (the variance estimates are then not numbers in the code). -/
noncomputable def multiplet (junk : Arr1) (t : Series) (mode : Mode) (ints : Bool) (flist : List ℝ) : Except Stop Fit :=
  match flist.mapM (projAt t mode ints) with
  | .error e => .error (.exc e)
  | .ok l =>
    let fl := l.map Prod.fst
    let gammas : Arr1 := fun i => 2 * π * fl.getD i 0 * t.dt
    match multipletAnalysis junk t.n flist.length gammas (2 * flist.length) (prjxns l) with
    | .error e => .error e
    | .ok r =>
      let dof : ℝ := (t.n : ℝ) - flist.length
      let dsqr := ∑ k ∈ Finset.range t.n, t.samples k ^ 2
      let varest := (dsqr - r.S) / (dof - 2)
      .ok ⟨fl, r, 1 / r.rdet, varest, varest * √(2 / (dof - 4)), hampsOf flist.length r.A⟩

/-- The loop of `Harmonics.analyze`: bha.py:58-62. -/
noncomputable def harmLoop (t : Series) (f : ℝ) : List ℕ → Except Err (List (ℝ × ℝ × ℝ))
  | [] => .ok []
  | i :: l => match t.fInfo (i * f) with
    | .error e => .error e
    | .ok (fh, rl, im) => match harmLoop t f l with
      | .error e => .error e
      | .ok r => .ok ((fh, rl, -im) :: r)

/-- `Harmonics.analyze(f)`: bha.py:51-71.  The list of the result holds the frequency of the fundamental; there is no variance estimate. -/
noncomputable def harmonics (junk : Arr1) (t : Series) (nharm : ℕ) (f : ℝ) : Except Stop Fit :=
  match t.fInfo f with
  | .error e => .error (.exc e)
  | .ok (ff, rl, im) =>
    if nharm = 0 then .error (.exc .index)
    else
      match harmLoop t ff (List.range' 2 (nharm - 1)) with
      | .error e => .error (.exc e)
      | .ok l =>
        match harmonicAnalysis junk nharm t.n (2 * π * ff * t.dt) (2 * nharm) (prjxns ((ff, rl, -im) :: l)) with
        | .error e => .error e
        | .ok r => .ok ⟨[ff], r, 1 / r.rdet, 0, 0, hampsOf nharm r.A⟩

/-- `covar()`: bha.py:81-88, 190-200, for the variance it uses. -/
noncomputable def Fit.covar (s : Fit) (m : ℕ) (var : ℝ) : Arr2 := fun p q => Vba.covar (2 * m) s.stats.L p q * var

/-- `sigmas()`: bha.py:91-105, 203-219. -/
noncomputable def Fit.sigmas (s : Fit) (m : ℕ) (var : ℝ) : List ℝ :=
  let c := s.covar m var
  (List.range m).map fun i =>
    √((s.stats.A (2 * i) / s.hamps.getD i 0) ^ 2 * c (2 * i) (2 * i) + (s.stats.A (2 * i + 1) / s.hamps.getD i 0) ^ 2 * c (2 * i + 1) (2 * i + 1))

/-- A `Multiplet` object: the frequencies last given to `analyze`, and what the last analysis that ended left. -/
structure Mult where
  fIn : Option (List ℝ)
  fit : Option Fit

/-- A call of `analyze`: bha.py:129-173; the first statements store the frequencies. -/
noncomputable def Mult.analyze (junk : Arr1) (t : Series) (mode : Mode) (ints : Bool) (s : Mult) (flist : List ℝ) : Mult × Option Stop :=
  match multiplet junk t mode ints flist with
  | .error e => (⟨some flist, s.fit⟩, some e)
  | .ok r => (⟨some flist, some r⟩, none)

/-- `amplitudes()`: bha.py:176-180. -/
def Mult.amplitudes (s : Mult) : Except Err (List ℝ) :=
  match s.fIn with
  | none => .error .runtime
  | some _ => match s.fit with
    | none => .error .attribute
    | some r => .ok r.hamps

end Verif.Bha
