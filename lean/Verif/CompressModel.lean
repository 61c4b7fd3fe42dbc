import Verif.ToolsModel
import Verif.WorldTable

/-!
# The program dscompress on a measurement set: dscompress.cc:13-65, 230-367

`ToolsModel` has the parts of the program. Here they are put together, on a table whose cells have values, and with the
manager that `createDyscoStManColumn` makes. Not modelled: output, the stopwatch, shapes of cells (a cell is the list of
its values, in the order of the storage) and `-reorder`.
-/

namespace Dysco.Compress
open Tools

/-- The value of a cell. casacore; dscompress.cc:233-236, 263-267. -/
inductive Cell where
  | complex (v : List Cx)
  | float (v : List Fl)
  | bool (v : List Bool)
  | int (v : Int)
  | double (v : Fl)

/-- dscompress.cc:238. -/
def Cell.complexes : Cell → List Cx
  | .complex v => v
  | _ => []

/-- stmanmodifier.h:168 with `T = float`. -/
def Cell.floats : Cell → List Fl
  | .float v => v
  | _ => []

/-- dscompress.cc:239. -/
def Cell.bools : Cell → List Bool
  | .bool v => v
  | _ => []

/-- dscompress.cc:269, 274-275. -/
def Cell.toInt : Cell → Int
  | .int v => v
  | _ => 0

/-- dscompress.cc:270, 276. -/
def Cell.toDouble : Cell → Fl
  | .double v => v
  | _ => .nan

/-- A measurement set. casacore; dscompress.cc:226-227. -/
abbrev Tab := Tools.Table Cell

/-- A column of it. casacore; dscompress.cc:233-234. -/
abbrev TCol := Tools.Column Cell

/-- Undefined behaviour. Not in the code. -/
def undefined {A : Type} : Act Cell A := fun _ _ => .ub

/-- `throw`. dscompress.cc:177, 290, 312, 321. -/
def throwing {A : Type} : Act Cell A := fun _ t => .threw t

/-! ## Flagged samples, dscompress.cc:230-255 -/

/-- `std::complex<float>(quiet_NaN, quiet_NaN)`, 245-246. -/
def nanCx : Cx := ⟨.nan, .nan⟩

/-- `"WEIGHT_SPECTRUM"`. dscompress.cc:232, 338, 349, 359. -/
def weightName : Arg := "WEIGHT_SPECTRUM".toList

/-- The body of the loop over the rows, 238-252. -/
def flagRow (view : View Cell) (name : Arg) (row : Nat) : Act Cell Unit := do
  let d ← getRow view name .complex row
  let f ← getRow view "FLAG".toList .bool row
  match nanRow nanCx d.complexes f.bools with
  | none => undefined
  | some (r, changed) => if changed then putRow name row (.complex r) else pure ()

/-- The loop over the rows, 237-253. -/
def flagRows (view : View Cell) (name : Arg) : Nat → Act Cell Unit
  | 0 => pure ()
  | n + 1 => do flagRows view name n; flagRow view name n

/-- One column, 232-254. -/
def flagColumn (view : View Cell) (name : Arg) : Act Cell Unit :=
  if name = weightName then pure ()
  else do
    let _ ← openColumn name .complex
    let _ ← openColumn "FLAG".toList .bool
    let n ← query fun t => some t.nrow
    flagRows view name n

/-! ## The ordering check, dscompress.cc:258-327 -/

/-- Time, field and data description. dscompress.cc:269-270, 277-278. -/
abbrev Key := Fl × Int × Int

/-- `time != lastTime || fieldId != lastFieldId || dataDescId != lastDataDescId`, 279-280, also
threadeddyscocolumn.cc:195-196. -/
def differs (a b : Key) : Bool := !(Fl.eq a.1 b.1) || decide (a.2.1 ≠ b.2.1) || decide (a.2.2 ≠ b.2.2)

/-- The columns are opened and the rows are checked. dscompress.cc:258-327. -/
def checkOrder (view : View Cell) : Act Cell Unit := do
  let a1 ← openColumn "ANTENNA1".toList .int
  let a2 ← openColumn "ANTENNA2".toList .int
  let fi ← openColumn "FIELD_ID".toList .int
  let dd ← openColumn "DATA_DESC_ID".toList .int
  let ti ← openColumn "TIME".toList .double
  let n ← query fun t => some t.nrow
  match check differs ((List.range n).map fun r =>
      ⟨((view ti r).toDouble, (view fi r).toInt, (view dd r).toInt), (view a1 r).toInt, (view a2 r).toInt⟩) with
  | .ok () => pure ()
  | .throws => throwing
  | .ub => undefined

/-- `main` after the arguments were read, dscompress.cc:230-367 (`doCheckMSFormat` is always true, 137). -/
def dscompress (view : View Cell) (columns : List Arg) : Act Cell Unit := do
  forEach (flagColumn view) columns
  checkOrder view
  compressColumns view columns

/-! ## The manager, dscompress.cc:15-65 -/

open StMan

/-- The number of a value of the enumeration, dyscodistribution.h. -/
def distributionNumber : Distribution → Nat
  | .gaussian => 0
  | .uniform => 1
  | .studentsT => 2
  | .truncatedGaussian => 3

/-- The number of a value of the enumeration, dysconormalization.h. -/
def normalizationNumber : Normalization → Nat
  | .af => 0
  | .rf => 1
  | .row => 2

/-- The bits of the `double` 1.0, the argument `studentsTNu` of dscompress.cc:352, 356. -/
def oneBits : Nat := 0x3ff0000000000000

/-- The bits of the `double` 2.5, dyscostman.cc:31. -/
def defaultTruncation : Nat := 0x4004000000000000

/-- `DyscoStMan(dataBitCount, weightBitCount)` with the default name, dyscostman.cc:15-32, dyscostman.h:59-60. -/
def constructed (data weight : Nat) : Man where
  nRow := 0
  nBlocks := 0
  rowsPerBlock := 0
  antennaCount := 0
  blockSize := 0
  headerSize := 0
  name := "DyscoStMan".toUTF8.toList.map fun b => BitVec.ofNat 8 b.toNat
  dataBitCount := data
  weightBitCount := weight
  distribution := 3
  normalization := 0
  studentTNu := 0
  distributionTruncation := defaultTruncation
  columns := []
  file := ⟨0, fun _ => 0⟩
  failed := false

/-- The manager with its settings, dscompress.cc:34-54; the functions are dyscostman.h:72-125. The last component of the
options is given as the bits of the `double`. The static seed is not part of `Man`. -/
def manager (o : Options Nat Nat) : Man :=
  let m := constructed o.bitsPerFloat o.bitsPerWeight
  let m := match o.distribution with
    | .gaussian => { m with distribution := 0 }
    | .uniform => { m with distribution := 1 }
    | .studentsT => { m with distribution := 2, studentTNu := oneBits }
    | .truncatedGaussian => { m with distribution := 3, distributionTruncation := o.truncation }
  { m with normalization := normalizationNumber o.normalization }

/-- A column as casacore makes it, with `makeDirArrColumn` (dyscostman.cc:316-336) and `setShapeColumn`; all columns get
the shape of the last one (dscompress.cc:332-358). -/
def newColumn (nPol nCh : Nat) (name : Arg) : StMan.Column :=
  ⟨decide (name ≠ weightName), nPol, nCh, 0, .af, 0, 0, 0⟩

/-- `ms.addColumn(columnDesc, "DyscoStMan", false)`, dscompress.cc:63, for each of the other columns: the manager makes
the column, then `addColumn` is called. -/
def addColumns (nPol nCh : Nat) : List Arg → Man → Man × Bool
  | [], m => (m, true)
  | name :: rest, m =>
    match StMan.addColumn { m with columns := m.columns ++ [newColumn nPol nCh name] } with
    | (m', false) => (m', false)
    | (m', true) => addColumns nPol nCh rest m'

/-- All calls of `createDyscoStManColumn` for a table without a `DyscoStMan`: the first makes the manager
(dscompress.cc:30-57), with `create` and `prepare` called by casacore. -/
def createColumns (o : Options Nat Nat) (nRow nPol nCh : Nat) : List Arg → Man × Bool
  | [] => (manager o, true)
  | name :: rest =>
    match prepare (create nRow { manager o with columns := [newColumn nPol nCh name] }) with
    | (m, false) => (m, false)
    | (m, true) => addColumns nPol nCh rest m

end Dysco.Compress
