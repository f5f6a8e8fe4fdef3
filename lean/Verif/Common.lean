/-!
# Common vocabulary: exceptions as values

A Python method that may raise is modelled by a function returning the resulting state *and* an optional
exception, so that "it raised, but it had already changed something" can be expressed.
-/

namespace Verif

/-- Exception classes raised by the modelled code (Python built-ins and the package's own). -/
inductive Err
  /-- `ParamError`, package/inference/pie/param.py:51-53 -/
  | param
  /-- `ParamRangeError`, package/inference/pie/param.py:56-58 (a subclass of `ParamError`) -/
  | paramRange
  /-- `StopStepping`, package/inference/pie/signalmodel.py:9-11 -/
  | stopStepping
  /-- `InferenceError` -/
  | inference
  /-- `DataError`, package/inference/pie/predictor.py:7-8 -/
  | data
  | value | type | zeroDiv | attribute | runtime | index | key | name | notImplemented | io
  | iter
  /-- `SystemError`: a C function reported failure without setting an exception -/
  | system
  deriving DecidableEq, Repr

/-- State after a call, and the exception it raised, if any. -/
abbrev Res (σ : Type _) := σ × Option Err

/-- Normal return. -/
@[simp] def ok {σ} (s : σ) : Res σ := (s, none)
/-- Raise `e` in state `s`. -/
@[simp] def raise {σ} (e : Err) (s : σ) : Res σ := (s, some e)

/-- Sequencing: `f` runs only if nothing was raised. -/
def Res.andThen {σ} (r : Res σ) (f : σ → Res σ) : Res σ :=
  match r with
  | (s, none) => f s
  | (s, some e) => (s, some e)

@[simp] theorem Res.andThen_ok {σ} (s : σ) (f : σ → Res σ) : Res.andThen (s, none) f = f s := rfl
@[simp] theorem Res.andThen_raise {σ} (s : σ) (e : Err) (f : σ → Res σ) :
    Res.andThen (s, some e) f = (s, some e) := rfl

/-- A property of the state that survives each half survives the sequence, exception or not. -/
theorem Res.andThen_inv {σ} {P : σ → Prop} {r : Res σ} {f : σ → Res σ}
    (h1 : P r.1) (h2 : ∀ s, P s → P (f s).1) : P (r.andThen f).1 := by
  obtain ⟨s, _ | e⟩ := r
  · exact h2 s h1
  · exact h1

end Verif
