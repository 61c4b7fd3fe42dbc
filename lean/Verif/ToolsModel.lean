import Verif.LoopModel

/-!
# The command line tools: dscompress.cc, decompress.cc, stmanmodifier.h

Casacore is not part of the repository. A table is modelled as a number of rows and a map from column names to
columns; a column has the name of its storage manager, an element type, and the rows put into it. What reading a
column gives is a parameter (`view`), because it depends on the storage manager. The calls the tools make
(`renameColumn`, `addColumn`, `removeColumn`, `put`) are atomic; the program can stop between any two of them.
Not modelled: output to the terminal, the stopwatch, shapes of cells.
-/

namespace Dysco.Tools

/-! ## Command line of dscompress, dscompress.cc:75-182 -/

/-- `DyscoDistribution`, dyscodistribution.h. -/
inductive Distribution where
  | gaussian | uniform | studentsT | truncatedGaussian
  deriving DecidableEq

/-- `Normalization`, dysconormalization.h. -/
inductive Normalization where
  | af | rf | row
  deriving DecidableEq

/-- An argument, as characters. dscompress.cc:72, 145-146. -/
abbrev Arg := List Char

/-- The variables set by the argument loop, dscompress.cc:135-142. `N` is the type of integers given by `atoi`,
`F` that of floating point values given by `atof`. -/
structure Options (N F : Type) where
  distribution : Distribution
  normalization : Normalization
  reorder : Bool
  bitsPerFloat : N
  bitsPerWeight : N
  truncation : F
  staticSeed : Bool
  columns : List Arg

/-- The conversions of the C library and the literals of the defaults. -/
structure Conv (N F : Type) where
  atoi : Arg → N
  atof : Arg → F
  /-- 8, dscompress.cc:138 -/
  bits : N
  /-- 12, dscompress.cc:138 -/
  weightBits : N
  /-- 2.5, dscompress.cc:139 -/
  sigma : F

/-- Defaults, dscompress.cc:135-142. -/
def defaults {N F : Type} (c : Conv N F) : Options N F :=
  ⟨.truncatedGaussian, .af, false, c.bits, c.weightBits, c.sigma, false, []⟩

/-- Outcome of argument parsing. -/
inductive CmdResult (N F : Type) where
  /-- usage is printed, 75-133 -/
  | usage
  /-- the options and the table path -/
  | run (o : Options N F) (path : Arg)
  /-- `std::runtime_error("Invalid parameter: ...")`, 177 -/
  | invalid (a : Arg)
  /-- `argv[argc]`, a null pointer, is used as a string -/
  | ub

variable {N F : Type}

/-- The argument loop and the table path, dscompress.cc:144-182. The argument list is what remains from `argi` on. -/
def parseLoop (c : Conv N F) : List Arg → Options N F → CmdResult N F
  | [], _ => .ub
  | a :: rest, o =>
    match a with
    | '-' :: p =>
      if p = "data-bit-rate".toList then
        match rest with
        | [] => .ub
        | v :: rest => parseLoop c rest { o with bitsPerFloat := c.atoi v }
      else if p = "weight-bit-rate".toList then
        match rest with
        | [] => .ub
        | v :: rest => parseLoop c rest { o with bitsPerWeight := c.atoi v }
      else if p = "reorder".toList then parseLoop c rest { o with reorder := true }
      else if p = "gaussian".toList then parseLoop c rest { o with distribution := .gaussian }
      else if p = "uniform".toList then parseLoop c rest { o with distribution := .uniform }
      else if p = "studentt".toList then parseLoop c rest { o with distribution := .studentsT }
      else if p = "truncgaus".toList then
        match rest with
        | [] => .ub
        | v :: rest => parseLoop c rest { o with distribution := .truncatedGaussian, truncation := c.atof v }
      else if p = "column".toList then
        match rest with
        | [] => .ub
        | v :: rest => parseLoop c rest { o with columns := o.columns ++ [v] }
      else if p = "rfnormalization".toList then parseLoop c rest { o with normalization := .rf }
      else if p = "afnormalization".toList then parseLoop c rest { o with normalization := .af }
      else if p = "rownormalization".toList then parseLoop c rest { o with normalization := .row }
      else if p = "static-seed".toList then parseLoop c rest { o with staticSeed := true }
      else .invalid a
    | _ =>
      -- 181: no column given
      .run (if o.columns = [] then { o with columns := ["DATA".toList] } else o) a

/-- `main`, dscompress.cc:72-182; `args` is `argv[1], ..., argv[argc - 1]`. -/
def parse (c : Conv N F) (args : List Arg) : CmdResult N F :=
  if args = [] then .usage else parseLoop c args (defaults c)

/-! ## Flagged samples, dscompress.cc:230-255 -/

/-- The loop over one row, 240-251: the samples, the flags, whether something changed; `none` when there are fewer
flags than samples (`*f` past the end). -/
def nanRow {V : Type} (nan : V) : List V → List Bool → Option (List V × Bool)
  | [], _ => some ([], false)
  | _ :: _, [] => none
  | d :: ds, f :: fs =>
    (nanRow nan ds fs).map fun (r, ch) => if f then (nan :: r, true) else (d :: r, ch)

/-- The loop over the rows, 237-253. The state is the column and the rows that were written, in order. -/
def nanRows {V : Type} (nan : V) (flags : Nat → List Bool) :
    Nat → (Nat → List V) → Option ((Nat → List V) × List Nat)
  | 0, col => some (col, [])
  | n + 1, col => (nanRows nan flags n col).bind fun (col', puts) =>
    (nanRow nan (col' n) (flags n)).map fun (r, ch) =>
      if ch then ((fun k => if k = n then r else col' k), puts ++ [n]) else (col', puts)

/-! ## Ordering check, dscompress.cc:258-327 -/

/-- The row data used by the check; `K` is the triple of time, field and data description. dscompress.cc:274-276. -/
structure Row (K : Type) where
  key : K
  ant1 : Int
  ant2 : Int

/-- The variables of the check, 269-272. -/
structure CheckState (K : Type) where
  last : K
  antennasInBlock : List (Int × Int)
  blockOffset : Nat
  blockNumber : Nat

/-- Outcome of the check. dscompress.cc:290, 312, 321. -/
inductive CheckResult (A : Type) where
  | ok (a : A)
  | throws
  | ub

/-- The loop body, 274-318; `differs` is the test of 277-278. -/
def checkRow {K : Type} (differs : K → K → Bool) (r : Row K) (s : CheckState K) : CheckResult (CheckState K) :=
  let new := differs r.key s.last
  if new && decide (s.blockOffset ≠ s.antennasInBlock.length) then .throws
  else
    let offset := if new then 0 else s.blockOffset
    let number := if new then s.blockNumber + 1 else s.blockNumber
    if number = 0 then .ok ⟨r.key, s.antennasInBlock ++ [(r.ant1, r.ant2)], offset + 1, number⟩
    else
      match s.antennasInBlock[offset]? with
      | none => .ub
      | some (a1, a2) =>
        if a1 ≠ r.ant1 ∨ a2 ≠ r.ant2 then .throws
        else .ok ⟨r.key, s.antennasInBlock, offset + 1, number⟩

/-- The loop over the rows. dscompress.cc:273-319. -/
def checkLoop {K : Type} (differs : K → K → Bool) : List (Row K) → CheckState K → CheckResult (CheckState K)
  | [], s => .ok s
  | r :: rs, s =>
    match checkRow differs r s with
    | .ok s' => checkLoop differs rs s'
    | .throws => .throws
    | .ub => .ub

/-- The check, 263-325; in an empty table row 0 is read although it does not exist. -/
def check {K : Type} (differs : K → K → Bool) : List (Row K) → CheckResult Unit
  | [] => .ub
  | r :: rs =>
    match checkLoop differs (r :: rs) ⟨r.key, [], 0, 0⟩ with
    | .ok s => if s.blockOffset ≠ s.antennasInBlock.length then .throws else .ok ()
    | .throws => .throws
    | .ub => .ub

/-! ## Changing the storage manager of columns, stmanmodifier.h -/

/-- Element types that matter. dscompress.cc:233-234, stmanmodifier.h:52-55. -/
inductive Kind where
  | complex | float | bool | int | double | other
  deriving DecidableEq

/-- A column: storage manager type, element type, rows that have been put, and the calls of `put` in their order.
casacore; stmanmodifier.h:36-37. -/
structure Column (R : Type) where
  manager : Arg
  kind : Kind
  rows : Nat → Option R
  puts : List (Nat × R)

/-- A table. casacore; stmanmodifier.h:161. -/
structure Table (R : Type) where
  nrow : Nat
  cols : Arg → Option (Column R)

/-- Outcome of a program: finished, exception, stopped from outside between two calls, or undefined behaviour.
Not in the code. -/
inductive Out (R A : Type) where
  | done (a : A) (steps : Nat) (t : Table R)
  | threw (t : Table R)
  | stopped (t : Table R)
  | ub

/-- A program that may make a number of calls before it is stopped. stmanmodifier.h:49-135. -/
def Act (R A : Type) := Nat → Table R → Out R A

variable {R A B : Type}

/-- Not in the code. -/
def Act.ret (a : A) : Act R A := fun n t => .done a n t

/-- One statement after another. -/
def Act.bind (m : Act R A) (f : A → Act R B) : Act R B := fun n t =>
  match m n t with
  | .done a n' t' => f a n' t'
  | .threw t' => .threw t'
  | .stopped t' => .stopped t'
  | .ub => .ub

instance : Monad (Act R) where
  pure := Act.ret
  bind := Act.bind

/-- A casacore call that changes the table: atomic; `none` is an exception. e.g. stmanmodifier.h:62. -/
def call (f : Table R → Option (Table R)) : Act R Unit := fun n t =>
  match n with
  | 0 => .stopped t
  | n + 1 =>
    match f t with
    | none => .threw t
    | some t' => .done () n t'

/-- A casacore call that reads. e.g. stmanmodifier.h:37. -/
def query (f : Table R → Option A) : Act R A := fun n t =>
  match f t with
  | none => .threw t
  | some a => .done a n t

/-- Change the column map at one name. Not in the code. -/
def Table.set (t : Table R) (name : Arg) (c : Option (Column R)) : Table R :=
  { t with cols := fun m => if m = name then c else t.cols m }

/-- `Table::renameColumn(newName, oldName)`: an error when the old column does not exist or the new name is used.
casacore; stmanmodifier.h:62, 105. -/
def renameColumn (new old : Arg) : Act R Unit := call fun t =>
  match t.cols old, t.cols new with
  | some c, none => some ((t.set new (some c)).set old none)
  | _, _ => none

/-- `Table::addColumn`: an error when the name is used. casacore; stmanmodifier.h:68, 73, dscompress.cc:56, 63. -/
def addColumn (name manager : Arg) (kind : Kind) : Act R Unit := call fun t =>
  match t.cols name with
  | none => some (t.set name (some ⟨manager, kind, fun _ => none, []⟩))
  | some _ => none

/-- `Table::removeColumn`. casacore; stmanmodifier.h:134. -/
def removeColumn (name : Arg) : Act R Unit := call fun t =>
  match t.cols name with
  | none => none
  | some _ => some (t.set name none)

/-- Construction of an `ArrayColumn<T>`: an error when the column does not exist or has another type.
casacore; stmanmodifier.h:36, 65, 70, 107, 128-129. -/
def openColumn (name : Arg) (kind : Kind) : Act R (Column R) := query fun t =>
  match t.cols name with
  | none => none
  | some c => if c.kind = kind then some c else none

/-- `ArrayColumn::put`. casacore; stmanmodifier.h:169. -/
def putRow (name : Arg) (row : Nat) (x : R) : Act R Unit := call fun t =>
  match t.cols name with
  | none => none
  | some c => some (t.set name (some { c with
      rows := fun k => if k = row then some x else c.rows k
      puts := c.puts ++ [(row, x)] }))

/-- `"DyscoStMan"`. stmanmodifier.h:59, dscompress.cc:340. -/
def dysco : Arg := "DyscoStMan".toList

/-- The default storage manager of casacore. stmanmodifier.h:68, 73. -/
def default' : Arg := "StandardStMan".toList

/-- `"TEMP_" + columnName`, stmanmodifier.h:60, 103, 126. -/
def temp (name : Arg) : Arg := "TEMP_".toList ++ name

/-- `GetStorageManager`, stmanmodifier.h:34-38. -/
def getStorageManager (name : Arg) (kind : Kind) : Act R Arg := do
  let c ← openColumn name kind
  pure c.manager

/-- `InitColumnWithDefaultStMan`, stmanmodifier.h:49-79. -/
def initColumnWithDefaultStMan (name : Arg) (kind : Kind) : Act R Bool := do
  let m ← getStorageManager name kind
  if m = dysco then
    renameColumn (temp name) name
    let _ ← openColumn (temp name) kind
    addColumn name default' kind
    pure true
  else pure false

/-- `PrepareReplacingColumn`, stmanmodifier.h:93-113. -/
def prepareReplacingColumn (name new : Arg) (kind : Kind) : Act R Bool := do
  let m ← getStorageManager name kind
  if m ≠ new then
    renameColumn (temp name) name
    let _ ← openColumn (temp name) kind
    pure true
  else pure false

/-- What reading row `k` of a column gives. casacore; stmanmodifier.h:168. -/
abbrev View (R : Type) := Column R → Nat → R

/-- `oldColumn.get(row, values)`. stmanmodifier.h:168. -/
def getRow (view : View R) (name : Arg) (kind : Kind) (row : Nat) : Act R R := do
  let c ← openColumn name kind
  pure (view c row)

/-- `copyValues`, stmanmodifier.h:164-171. -/
def copyValues (view : View R) (new old : Arg) (kind : Kind) : Nat → Act R Unit
  | 0 => pure ()
  | n + 1 => do
    copyValues view new old kind n
    let x ← getRow view old kind n
    putRow new n x

/-- `MoveColumnData`, stmanmodifier.h:123-135. -/
def moveColumnData (view : View R) (name : Arg) (kind : Kind) : Act R Unit := do
  let _ ← openColumn (temp name) kind
  let _ ← openColumn name kind
  let n ← query fun t => some t.nrow
  copyValues view name (temp name) kind n
  removeColumn (temp name)

/-- Type used for a column by dscompress.cc:338-343, 349-356, 359-362. -/
def kindOf (name : Arg) : Kind := if name = "WEIGHT_SPECTRUM".toList then .float else .complex

/-- A statement for every element of a list. dscompress.cc:336, 348, 358. -/
def forEach (f : Arg → Act R Unit) : List Arg → Act R Unit
  | [] => pure ()
  | a :: as => do f a; forEach f as

/-- dscompress.cc:334-345: `isDataReplaced`. -/
def prepareAll : List Arg → Bool → Act R Bool
  | [], b => pure b
  | a :: as, b => do
    let r ← prepareReplacingColumn a dysco (kindOf a)
    prepareAll as (r || b)

/-- dscompress.cc:332-367 without the reordering; `createDyscoStManColumn` (15-65) adds the column with a new or the
existing storage manager, both called `DyscoStMan`. -/
def compressColumns (view : View R) (columns : List Arg) : Act R Unit := do
  let replaced ← prepareAll columns false
  if replaced then
    forEach (fun a => addColumn a dysco (kindOf a)) columns
    forEach (fun a => moveColumnData view a (kindOf a)) columns
  else pure ()

/-- `if (b) m`. e.g. dscompress.cc:364. -/
def onlyIf (b : Bool) (m : Act R Unit) : Act R Unit := if b = true then m else pure ()

/-- `main` of decompress.cc:15-22, without the reordering. The result tells whether a column was replaced. -/
def decompressColumns (view : View R) : Act R Bool := do
  let d ← initColumnWithDefaultStMan "DATA".toList .complex
  let w ← initColumnWithDefaultStMan "WEIGHT_SPECTRUM".toList .float
  onlyIf d (moveColumnData view "DATA".toList .complex)
  onlyIf w (moveColumnData view "WEIGHT_SPECTRUM".toList .float)
  pure (d || w)

/-- `StManModifier::Reorder`, stmanmodifier.h:149-151, name of the temporary table: `none` when `rbegin` of an empty
string is read. The argument is the reversed path. -/
def stripSlashes : Arg → Option Arg
  | [] => none
  | '/' :: p => stripSlashes p
  | p => some p

/-- stmanmodifier.h:149-151. -/
def reorderName (path : Arg) : Option Arg := (stripSlashes path.reverse).map fun p => p.reverse ++ "temp".toList

end Dysco.Tools
