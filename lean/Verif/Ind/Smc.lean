import Verif.Ind.Blocks
import Verif.Ind.Params

/-!
# Smart Money Concepts (`trend/SmartMoneyConcepts.go`)
-/

set_option linter.unusedSectionVars false

namespace Verif.Ind.Smc
open Verif Verif.Klines Verif.Ta Verif.Ind GoFloat

variable {F : Type} [GoFloat F]

/-- Models trend/SmartMoneyConcepts.go:55-77 `SmartMoneyConceptsData`; the time as Unix seconds. -/
structure Rec (F : Type) where
  time : Int
  highBosShort : F
  highChochShort : F
  highBosLong : F
  highChochLong : F
  lowBosShort : F
  lowChochShort : F
  lowBosLong : F
  lowChochLong : F
  eqh : F
  eql : F
  deriving DecidableEq, Repr

/-- The zero value of a record. -/
def Rec.zero : Rec F := ⟨zeroUnix, fl 0, fl 0, fl 0, fl 0, fl 0, fl 0, fl 0, fl 0, fl 0, fl 0⟩

/-- Models trend/SmartMoneyConcepts_type.go:7-10 `SmartMoneyConceptsDataStrongWeak`. -/
structure Level (F : Type) where
  time : Int
  value : F
  deriving DecidableEq, Repr

/-- The zero value of a level. -/
def Level.zero : Level F := ⟨zeroUnix, fl 0⟩

/-- The parameters among the fields of trend/SmartMoneyConcepts.go:17-38. -/
structure Cfg where
  /-- `SwingLenght` -/
  swing : Int
  /-- `EQHEQL_BarsConfirmation` -/
  conf : Int
  /-- `EQHEQL_Threshold` -/
  thr : Int
  /-- `EQHEQL_Enable` -/
  enable : Bool
  /-- `OrderBlockNumber` -/
  number : Int
  deriving DecidableEq, Repr

/-- The fields of trend/SmartMoneyConcepts.go:17-53 that change. -/
structure Obj (F : Type) where
  data : List (Rec F)
  /-- `OrderBlockBullish` -/
  bull : List (Block F)
  /-- `OrderBlockBearish` -/
  bear : List (Block F)
  os1 : Int
  os2 : Int
  /-- `idxPrevBullish` -/
  idxBull : Int
  /-- `idxPrevBearish` -/
  idxBear : Int
  strongHigh : Level F
  weakHigh : Level F
  strongLow : Level F
  weakLow : Level F
  deriving DecidableEq, Repr

/-- The fields of an object the constructors return (trend/SmartMoneyConcepts.go:80-117 set none of them). -/
def Obj.new : Obj F := ⟨[], [], [], 0, 0, 0, 0, .zero, .zero, .zero, .zero⟩

/-- Models trend/SmartMoneyConcepts.go:80-91 `NewSmartMoneyConcepts` and 94-112 `NewSmartMoneyConceptsOHLC`: the
parameters. Simplification: the display name is left out; the columns are an argument of `Calculation` below. -/
def Cfg.new (swing conf thr : Int) : Cfg := ⟨swing, conf, thr, false, 5⟩

/-- Models trend/SmartMoneyConcepts.go:115-117 `NewDefaultSmartMoneyConcepts`. -/
def Cfg.default : Cfg := Cfg.new 50 3 1

/-- Models trend/SmartMoneyConcepts.go:119-123 `Clear`. -/
def Clear (e : Obj F) : Obj F := { e with data := [], bear := [], bull := [] }

/-- The local variables of `Calculation`, trend/SmartMoneyConcepts.go:138-165. -/
structure Loc (F : Type) where
  trend : Int
  itrend : Int
  topY : F
  topX : Int
  btmY : F
  btmX : Int
  itopY : F
  itopX : Int
  ibtmY : F
  ibtmX : Int
  trailUp : F
  trailDn : F
  trailUpX : Int
  trailDnX : Int
  topCross : Bool
  btmCross : Bool
  itopCross : Bool
  ibtmCross : Bool
  eqPrevTop : F
  eqTopX : Int
  eqPrevBtm : F
  eqBtmX : Int
  deriving DecidableEq, Repr

/-- The initial values, trend/SmartMoneyConcepts.go:138-165. -/
def Loc.new : Loc F :=
  { trend := 0, itrend := 0, topY := fl 0, topX := 0, btmY := fl 0, btmX := 0, itopY := fl 0, itopX := 0,
    ibtmY := fl 0, ibtmX := 0, trailUp := fl 0, trailDn := fl 0, trailUpX := 0, trailDnX := 0,
    topCross := true, btmCross := true, itopCross := true, ibtmCross := true,
    eqPrevTop := fl 0, eqTopX := 0, eqPrevBtm := fl 0, eqBtmX := 0 }

/-- Models trend/SmartMoneyConcepts.go:504-547 `swings`. The field `os1Prev` or `os2Prev`, which `osType` selects,
is the argument `osPrev`; its new value is the third result. The unused argument `index` is left out. -/
def swings (highs lows : List F) (lenght : Int) (osPrev : Int) : Go (F × F × Int) := do
  let upper ← Highest highs lenght
  let lower ← Lowest lows lenght
  let h ← idx highs (highs.length - 1)
  let h ← (if (highs.length : Int) - lenght - 1 ≥ 0 then idx highs (highs.length - lenght - 1) else pure h)
  let l ← idx lows (lows.length - 1)
  let l ← (if (lows.length : Int) - lenght - 1 ≥ 0 then idx lows (lows.length - lenght - 1) else pure l)
  let os : Int := if h >. upper then 0 else if l <. lower then 1 else osPrev
  let top : F := if os = 0 ∧ osPrev ≠ 0 then h else fl 0
  let btm : F := if os = 1 ∧ osPrev ≠ 1 then l else fl 0
  pure (top, btm, os)

/-- The field `obCoord` reads as `idxPrev`: trend/SmartMoneyConcepts.go:452-455 and 471-474. -/
def Obj.prev (e : Obj F) (obType : Int) : Int := if obType = 2 then e.idxBear else e.idxBull

/-- The field `obCoord` writes: trend/SmartMoneyConcepts.go:459-463 and 478-482. -/
def Obj.setPrev (e : Obj F) (obType : Int) (ix : Int) : Obj F :=
  if obType = 1 then { e with idxBull := ix } else if obType = 2 then { e with idxBear := ix } else e

/-- Models trend/SmartMoneyConcepts.go:448-465: one pass of the loop of `obCoord` for `useMax`, at candle `i`; the
state is `(min, max, idx, e)`. -/
def obTopStep (highs lows atr : List F) (obType i : Int) (s : F × F × Int × Obj F) : Go (F × F × Int × Obj F) := do
  let h ← idx highs i
  let l ← idx lows i
  let a ← idx atr i
  if (h -. l) <. (a *. fl 2) then
    let idxPrev := s.2.2.2.prev obType
    let max := GoFloat.max h s.2.1
    let min := if max ==. h then l else s.1
    let ix := if max ==. h then i else idxPrev
    pure (min, max, ix, s.2.2.2.setPrev obType ix)
  else pure s

/-- Models trend/SmartMoneyConcepts.go:468-485: one pass of the loop of `obCoord` for `!useMax`. -/
def obBottomStep (highs lows atr : List F) (obType i : Int) (s : F × F × Int × Obj F) : Go (F × F × Int × Obj F) := do
  let h ← idx highs i
  let l ← idx lows i
  let a ← idx atr i
  if (h -. l) <. (a *. fl 2) then
    let idxPrev := s.2.2.2.prev obType
    let min := GoFloat.min l s.1
    let max := if min ==. l then h else s.2.1
    let ix := if min ==. l then i else idxPrev
    pure (min, max, ix, s.2.2.2.setPrev obType ix)
  else pure s

/-- Models trend/SmartMoneyConcepts.go:440-501 `obCoord`: the object afterwards and the new list. The downward loops
`for i := index; i > loc-1; i--` are written over `d = index - i`. -/
def obCoord (o : OHLC F) (e : Obj F) (useMax : Bool) (index loc : Int) (highs lows atr : List F)
    (list : List (Block F)) (obType : Int) : Go (Obj F × List (Block F)) := do
  let s ← goFor 0 (index - loc + 1) ((lit 99999999 : F), (fl 0 : F), (1 : Int), e) fun d s =>
    if useMax then obTopStep highs lows atr obType (index - d) s else obBottomStep highs lows atr obType (index - d) s
  let ix := s.2.2.1
  let t ← idx o.timeUnix ix
  let op ← idx o.open_ ix
  let cl ← idx o.close ix
  let hi ← idx highs ix
  let lo ← idx lows ix
  pure (s.2.2.2, Ind.Add list { isTop := useMax, time := t, open_ := op, close := cl, high := hi, low := lo })

/-- The loops `for candleIndex := from; candleIndex <= to; candleIndex++ { e.data[candleIndex].X = v }` of
trend/SmartMoneyConcepts.go:248-256, 271-279, 297-305, 320-328, 385-387, 398-400. -/
def draw (data : List (Rec F)) (lo hi : Int) (put : Rec F → Rec F) : Go (List (Rec F)) :=
  goFor lo (hi + 1) data fun k d => do
    let r ← idx d k
    setAt d k (put r)

/-- Models trend/SmartMoneyConcepts.go:180-186: the trailing levels start at the current candle. -/
def trailInit (high low : F) (v : Loc F) : Loc F :=
  let v := if v.trailUp ==. fl 0 then { v with trailUp := high } else v
  if v.trailDn ==. fl 0 then { v with trailDn := low } else v

/-- Models trend/SmartMoneyConcepts.go:195-236: the swing points of this candle are remembered, the trailing levels
follow. -/
def takeSwings (swing i : Int) (high low top btm itop ibtm : F) (v : Loc F) : Loc F :=
  let v := if !(top ==. fl 0) then
    { v with topCross := true, topY := top, topX := i - swing, trailUp := top, trailUpX := i - swing } else v
  let v := if !(itop ==. fl 0) then { v with itopCross := true, itopY := itop, itopX := i - 5 } else v
  let v := { v with trailUp := GoFloat.max high v.trailUp }
  let v := if v.trailUp ==. high then { v with trailUpX := i } else v
  let v := if !(btm ==. fl 0) then
    { v with btmCross := true, btmY := btm, btmX := i - swing, trailDn := btm, trailDnX := i - swing } else v
  let v := if !(ibtm ==. fl 0) then { v with ibtmCross := true, ibtmY := ibtm, ibtmX := i - 5 } else v
  let v := { v with trailDn := GoFloat.min low v.trailDn }
  if v.trailDn ==. low then { v with trailDnX := i } else v

/-- Models trend/SmartMoneyConcepts.go:241-263: the short-term upward break. `closes`, `highs`, `lows` and `atr` are
the slices up to candle `i`. -/
def highShort (o : OHLC F) (closes highs lows atr : List F) (i : Int) (s : Obj F × Loc F) : Go (Obj F × Loc F) := do
  let (e, v) := s
  let c ← CrossOver closes v.itopY
  if c && v.itopCross && !(v.topY ==. v.itopY) then
    let choch := decide (v.itrend < 0)
    let data ← (if choch then draw e.data v.itopX i (fun r => { r with highChochShort := v.itopY })
      else draw e.data v.itopX i (fun r => { r with highBosShort := v.itopY }))
    let e := { e with data := data }
    let v := { v with itopCross := false, itrend := 1 }
    let (e, l) ← obCoord o e false i v.itopX highs lows atr e.bull 1
    pure ({ e with bull := l }, v)
  else pure (e, v)

/-- Models trend/SmartMoneyConcepts.go:265-285: the long-term upward break. -/
def highLong (o : OHLC F) (closes highs lows atr : List F) (i : Int) (s : Obj F × Loc F) : Go (Obj F × Loc F) := do
  let (e, v) := s
  let c ← CrossOver closes v.topY
  if c && v.topCross then
    let choch := decide (v.trend < 0)
    let data ← (if choch then draw e.data v.topX i (fun r => { r with highChochLong := v.topY })
      else draw e.data v.topX i (fun r => { r with highBosLong := v.topY }))
    let e := { e with data := data }
    let v := { v with topCross := false, trend := 1 }
    let (e, l) ← obCoord o e false i v.topX highs lows atr e.bear 2
    pure ({ e with bear := l }, v)
  else pure (e, v)

/-- Models trend/SmartMoneyConcepts.go:290-311: the short-term downward break. -/
def lowShort (o : OHLC F) (closes highs lows atr : List F) (i : Int) (s : Obj F × Loc F) : Go (Obj F × Loc F) := do
  let (e, v) := s
  let c ← CrossUnder closes v.ibtmY
  if c && v.ibtmCross && !(v.btmY ==. v.ibtmY) then
    let choch := decide (v.itrend > 0)
    let data ← (if choch then draw e.data v.ibtmX i (fun r => { r with lowChochShort := v.ibtmY })
      else draw e.data v.ibtmX i (fun r => { r with lowBosShort := v.ibtmY }))
    let e := { e with data := data }
    let v := { v with ibtmCross := false, itrend := -1 }
    let (e, l) ← obCoord o e true i v.ibtmX highs lows atr e.bull 1
    pure ({ e with bull := l }, v)
  else pure (e, v)

/-- Models trend/SmartMoneyConcepts.go:313-334: the long-term downward break (the change of character is decided by
`itrend`, as in the source). -/
def lowLong (o : OHLC F) (closes highs lows atr : List F) (i : Int) (s : Obj F × Loc F) : Go (Obj F × Loc F) := do
  let (e, v) := s
  let c ← CrossUnder closes v.btmY
  if c && v.btmCross then
    let choch := decide (v.itrend > 0)
    let data ← (if choch then draw e.data v.btmX i (fun r => { r with lowChochLong := v.btmY })
      else draw e.data v.btmX i (fun r => { r with lowBosLong := v.btmY }))
    let e := { e with data := data }
    let v := { v with btmCross := false, trend := -1 }
    let (e, l) ← obCoord o e true i v.btmX highs lows atr e.bear 2
    pure ({ e with bear := l }, v)
  else pure (e, v)

/-- The condition of trend/SmartMoneyConcepts.go:342-346 and 358-362. -/
def broken (close : F) (v : Block F) : Bool :=
  ((close <. v.close) && !v.isTop) || ((close >. v.high) && v.isTop)

/-- The first loop of trend/SmartMoneyConcepts.go:339-350 and 355-366: the blocks to remove, in order. `j` is the
index of the first element of the remaining slice. -/
def marked (close : F) (number : Int) : Int → List (Block F) → List (Block F) → List (Block F)
  | _, [], r => r
  | j, v :: rest, r =>
    let r := if broken close v then r ++ [v] else r
    let r := if j > number ∧ !(Contains r v) then r ++ [v] else r
    marked close number (j + 1) rest r

/-- The second loop: `for _, v := range removelist { list = list.Remove(v) }`. -/
def removeAll : List (Block F) → List (Block F) → Go (List (Block F))
  | [], l => pure l
  | v :: rest, l => do
    let l ← Remove l v
    removeAll rest l

/-- Models trend/SmartMoneyConcepts.go:339-353 (and, for the other list, 355-369): outdated order blocks are
removed. -/
def prune (close : F) (number : Int) (l : List (Block F)) : Go (List (Block F)) :=
  removeAll (marked close number 0 l []) l

/-- Models trend/SmartMoneyConcepts.go:374-405: equal highs and equal lows. `conf` is `EQHEQL_BarsConfirmation`,
`highs` and `lows` are the slices up to candle `i`, `a` is `atr[i]`. -/
def equals (g : Cfg) (highs lows : List F) (a : F) (i : Int) (s : Obj F × Loc F) : Go (Obj F × Loc F) := do
  let (e, v) := s
  let eqTopArr ← PivotHigh highs g.conf g.conf
  let eqTop ← idx eqTopArr (eqTopArr.length - 1)
  let eqBtmArr ← PivotLow lows g.conf g.conf
  let eqBtm ← idx eqBtmArr (eqBtmArr.length - 1)
  let (e, v) ← (if !(eqTop ==. fl 0) then do
      let max := GoFloat.max eqTop v.eqPrevTop
      let min := GoFloat.min eqTop v.eqPrevTop
      let data ← (if max <. (min +. a *. fl g.thr /. fl 10) then
        draw e.data v.eqTopX (i - g.conf) (fun r => { r with eqh := v.eqPrevTop }) else pure e.data)
      pure ({ e with data := data }, { v with eqPrevTop := eqTop, eqTopX := i - g.conf })
    else pure (e, v))
  (if !(eqBtm ==. fl 0) then do
      let max := GoFloat.max eqBtm v.eqPrevBtm
      let min := GoFloat.min eqBtm v.eqPrevBtm
      let data ← (if min >. (max -. a *. fl g.thr /. fl 10) then
        draw e.data v.eqBtmX (i - g.conf) (fun r => { r with eql := v.eqPrevBtm }) else pure e.data)
      pure ({ e with data := data }, { v with eqPrevBtm := eqBtm, eqBtmX := i - g.conf })
    else pure (e, v))

/-- Models trend/SmartMoneyConcepts.go:410-432: strong and weak high and low. -/
def levels (times : List Int) (s : Obj F × Loc F) : Go (Obj F × Loc F) := do
  let (e, v) := s
  let tu ← idx times v.trailUpX
  let e := if v.trend < 0 then { e with strongHigh := ⟨tu, v.trailUp⟩ } else { e with weakHigh := ⟨tu, v.trailUp⟩ }
  let td ← idx times v.trailDnX
  let e := if v.trend > 0 then { e with strongLow := ⟨td, v.trailDn⟩ } else { e with weakLow := ⟨td, v.trailDn⟩ }
  pure (e, v)

/-- Models trend/SmartMoneyConcepts.go:173-435: one pass of the loop over the candles. -/
def step (g : Cfg) (o : OHLC F) (atr : List F) (i : Int) (s : Obj F × Loc F) : Go (Obj F × Loc F) := do
  let (e, v) := s
  let close ← idx o.close i
  let high ← idx o.high i
  let low ← idx o.low i
  let timeUnix ← idx o.timeUnix i
  let v := trailInit high low v
  if i < g.swing then pure (e, v)
  else do
    let highs ← slice o.high 0 (i + 1)
    let lows ← slice o.low 0 (i + 1)
    let (top, btm, os1) ← swings highs lows g.swing e.os1
    let e := { e with os1 := os1 }
    let (itop, ibtm, os2) ← swings highs lows 5 e.os2
    let e := { e with os2 := os2 }
    let v := takeSwings g.swing i high low top btm itop ibtm v
    let closes ← slice o.close 0 (i + 1)
    let atrs ← slice atr 0 (i + 1)
    let s ← highShort o closes highs lows atrs i (e, v)
    let s ← highLong o closes highs lows atrs i s
    let s ← lowShort o closes highs lows atrs i s
    let (e, v) ← lowLong o closes highs lows atrs i s
    let bull ← prune close g.number e.bull
    let e := { e with bull := bull }
    let bear ← prune close g.number e.bear
    let e := { e with bear := bear }
    let a ← idx atr i
    let s ← (if g.enable then equals g highs lows a i (e, v) else pure (e, v))
    let (e, v) ← levels o.timeUnix s
    let r ← idx e.data i
    let data ← setAt e.data i { r with time := timeUnix }
    pure ({ e with data := data }, v)

/-- Models trend/SmartMoneyConcepts.go:126-438 `Calculation`: the object afterwards, or a panic. The deferred
function only clears local variables. Simplification: `atr[i]` and the slices are read once per pass; all of them are
within bounds whenever `Atr` returns, since `Atr` returns a slice as long as `closes`. -/
def Calculation (g : Cfg) (o : OHLC F) (e : Obj F) : Go (Obj F) := do
  let atr ← Atr o.high o.low o.close 200
  let data ← mk o.close.length Rec.zero
  let (e, _) ← goFor 1 o.close.length ({ e with data := data }, Loc.new) fun i s => step g o atr i s
  pure e

/-- Models trend/SmartMoneyConcepts.go:550-555 `GetData`: the records and the object afterwards. -/
def GetData (g : Cfg) (o : OHLC F) (e : Obj F) : Go (List (Rec F) × Obj F) := do
  let e ← (if e.data.length = 0 then Calculation g o e else pure e)
  pure (e.data, e)

end Verif.Ind.Smc
