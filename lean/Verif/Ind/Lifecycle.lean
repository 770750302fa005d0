import Verif.Ind.Osc
import Verif.Ind.Trend3

/-!
# Objects that can be cleared, and `ComputeCCI`

`ReversalSignals` and `VolumeOscillator` have a `Clear` that also drops the candle source. Their objects are modelled here
with the source as a pointer that may be nil; `Verif/Ind/Core.lean` covers them before the first `Clear`.
-/

set_option linter.unusedSectionVars false

namespace Verif.Ind
open Verif Verif.Klines Verif.Ta GoFloat

variable {F : Type}

/-- The struct: `kline *klines.Item` and `data` (trend/ReversalSignals.go:12-22, oscillator/VolumeOscillator.go:14-20;
the other fields never change). -/
structure Kept (F D : Type) where
  kline : Option (Item F)
  data : List D

/-- The methods. Models trend/ReversalSignals.go:41-44, 47-107, 110-115 and oscillator/VolumeOscillator.go:44-47, 50-67,
70-75, 78-87 (`GetValues`, `VolumeOscillator` only). -/
inductive Call
  | clear
  | calculation
  | getData
  | getValues
  deriving DecidableEq

/-- What a call returns: nothing or the object itself, records, values. -/
inductive Reply (F D : Type)
  | done
  | records (d : List D)
  | values (v : List F)
  deriving DecidableEq

/-- `e.Calculation()`: `e.kline` is dereferenced first; on a panic the object stays as it is (both methods assign `e.data`
only after the lines that can fail). -/
def Kept.Calculation {D : Type} (compute : Item F → List D → Go (List D)) (e : Kept F D) : Go (Kept F D) :=
  match e.kline with
  | none => .error .nilDeref
  | some it => do
    let d ← compute it e.data
    pure { e with data := d }

/-- `if len(e.data) == 0 { e = e.Calculation() }`. -/
def Kept.ensure {D : Type} (compute : Item F → List D → Go (List D)) (e : Kept F D) : Go (Kept F D) :=
  if e.data.length = 0 then e.Calculation compute else pure e

/-- One call. -/
def Kept.call {D : Type} (compute : Item F → List D → Go (List D)) (vals : List D → Go (List F)) (e : Kept F D) :
    Call → Go (Reply F D × Kept F D)
  | .clear => pure (.done, { kline := none, data := [] })
  | .calculation => do
    let e ← e.Calculation compute
    pure (.done, e)
  | .getData => do
    let e ← e.ensure compute
    pure (.records e.data, e)
  | .getValues => do
    let e ← e.ensure compute
    let v ← vals e.data
    pure (.values v, e)

/-- A history of calls; the caller recovers from panics, which leave the object as it was. Returns what every call
answered and the object at the end. -/
def Kept.run {D : Type} (compute : Item F → List D → Go (List D)) (vals : List D → Go (List F)) (e : Kept F D) :
    List Call → List (Go (Reply F D)) × Kept F D
  | [] => ([], e)
  | c :: cs =>
    match e.call compute vals c with
    | .ok (r, e') => let (rs, e'') := e'.run compute vals cs; (.ok r :: rs, e'')
    | .error p => let (rs, e'') := e.run compute vals cs; (.error p :: rs, e'')

variable [GoFloat F]

/-- The two types with such a `Clear`: the `Calculation` and the body of `GetValues` after `ensure`. `ReversalSignals` has
no `GetValues`: a history of it that contains one describes no Go program and can be ignored. -/
inductive Clearable (F : Type) [GoFloat F] : (D : Type) → (Item F → List D → Go (List D)) → (List D → Go (List F)) → Prop
  | reversal : Clearable F Rev.Data Rev.Calculation fun _ => pure []
  | volumeOsc (a b : Int) : Clearable F (Rec F) (VolOsc.Calculation a b) (valuesLoop Rec.value)

/-- Models trend/AiCoinCCI.go:47-59 `ComputeCCI`. -/
def ComputeCCI (close matp md : List F) : Go (List F) := do
  let n : Int := close.length
  let cci ← mk n (fl 0)
  goFor 0 n cci fun i cci => do
    let d ← idx md i
    if d ==. fl 0 then setAt cci i (fl 0)
    else
      let c ← idx close i
      let m ← idx matp i
      setAt cci i ((c -. m) /. (lit (15 / 1000) *. d))

end Verif.Ind
