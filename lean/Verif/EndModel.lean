import Verif.ColumnModel
import Verif.StorageProps

/-!
# A column on top of its file

Model of the parts of threadeddyscocolumn.cc that connect the time block buffer of a column with the
encoded blocks in the file: which bytes a stored block gives, and reading rows of a table that is only read.
-/

namespace Dysco.End
open BytePacker Layout StMan

/-- The `TimeBlockBuffer` that the column hands to an encoder thread; rows that were never set are value
initialised, timeblockbuffer.h:30-34. -/
def toBlock {α : Type} (zero : α) (rows : Col.Rows (DataRow α)) : Block α :=
  ⟨rows.len, fun j => (rows.get j).getD ⟨0, 0, ⟨0, fun _ => zero⟩⟩⟩

/-- Encoding and decoding of a column: `encode` of a time block, which draws random numbers and may be
given fuel (`k`), and `initializeDecode` with `decode` for the rows of a block. threadeddyscocolumn.h:133-144. -/
structure Codec (α : Type) where
  /-- `DataType()` -/
  zero : α
  enc : (Nat → Nat) → Nat → Block α → Buf Fl → Buf Nat → Option (Option (Buf Fl × Buf Nat))
  dec : Nat → Buf Fl → Buf Nat → Nat → Block α → Option (Block α)

/-- `DyscoDataColumn`; `ants` are the antenna columns of the table (threadeddyscocolumn.cc:94-98). -/
def dataCodec (sq : Fl → Fl) (e : Stochastic.Encoder) (ants : Nat → Nat × Nat) (rowsPerBlock : Nat)
    (c : Column) : Codec Cx where
  zero := ⟨.fin 0, .fin 0⟩
  enc := encData c.norm sq e c.nPol c.nCh c.antennaCount
  dec := fun b => decData c.norm e c.nPol c.nCh c.antennaCount (fun r => ants (b * rowsPerBlock + r))

/-- `DyscoWeightColumn`. dyscoweightcolumn.cc:5-33. -/
def weightCodec (c : Column) : Codec Fl where
  zero := .fin 0
  enc := fun _ _ => encWeight c.nPol c.nCh c.bits
  dec := fun _ => decWeight c.nPol c.nCh c.bits

/-- `encodeAndWrite`, threadeddyscocolumn.cc:272-294, can give the bytes `d` for these rows: for some random
numbers and some old contents of the buffers of the thread, which have the sizes of 306-308. -/
def Encodes {α : Type} (K : Codec α) (c : Column) (rowsPerBlock : Nat) (rows : Col.Rows (DataRow α))
    (d : Mem 8) : Prop :=
  ∃ dith fuel packed unpacked, packed.len = c.blockSize ∧ unpacked.len = c.symCount rowsPerBlock ∧
    writeBlock (K.enc dith fuel (toBlock K.zero rows)) c.bits (c.metaCount rowsPerBlock c.antennaCount)
      (c.symCount rowsPerBlock) packed unpacked = .ok d

/-- The blocks that column `i` writes, in order. Not in the code: dyscostman.cc:432-445 for one column. -/
def colWrites (i : Nat) (ops : List BlockOp) : List (Nat × Mem 8) :=
  ops.filterMap fun
    | .write b j d => if j = i then some (b, d) else none
    | _ => none

/-- The file operations contain for column `i` the writes of its encoder threads, in the order in which
these write (`writeCompressedData` is called by the thread, threadeddyscocolumn.cc:293); what other columns
do in between is free. -/
def Implements {α : Type} (K : Codec α) (c : Column) (rowsPerBlock i : Nat) (ops : List BlockOp)
    (writes : List (Nat × Col.Rows (DataRow α))) : Prop :=
  List.Forall₂ (fun x y => x.1 = y.1 ∧ Encodes K c rowsPerBlock y.2 x.2) (colWrites i ops) writes

/-! ## Reading -/

/-- The fields a read-only column uses: the manager, `_currentBlock` and `_timeBlockBuffer`. The write
cache is empty and `_isCurrentBlockChanged` is false. threadeddyscocolumn.h:222, 227. -/
structure Reader (α : Type) where
  man : Man
  current : Nat
  buffer : Block α

/-- `loadBlock`, threadeddyscocolumn.cc:79-104. `packed` and `unpacked` are the read buffers with their old
contents. -/
def loadBlock {α : Type} (K : Codec α) (i b : Nat) (packed : Mem 8) (unpacked : Buf Nat) (s : Reader α) :
    Res (Reader α) :=
  match s.man.columns[i]? with
  | none => .ub
  | some c =>
    if b < s.man.nBlocks then
      match readCompressedData b c packed c.blockSize s.man with
      | (_, _, false) => .error
      | (m, packed, true) =>
        match readBlock (K.dec b) c.bits (c.metaCount m.rowsPerBlock c.antennaCount)
            (c.symCount m.rowsPerBlock) m.rowsPerBlock ⟨0, 0, ⟨0, fun _ => K.zero⟩⟩ packed unpacked s.buffer with
        | .ok rows => .ok ⟨m, b, rows⟩
        | .ub => .ub
        | .hang => .hang
        | .error => .error
    else .ok { s with current := b }

/-- `getValues`, threadeddyscocolumn.cc:106-143, with an empty write cache. `dest` is the storage of the
array. -/
def getValues {α : Type} (K : Codec α) (i row : Nat) (dest : Buf α) (packed : Mem 8) (unpacked : Buf Nat)
    (s : Reader α) : Res (Reader α × Buf α) :=
  if !areOffsetsInitialized s.man then .ok (s, ⟨dest.len, fun _ => K.zero⟩) else
  if s.man.nBlocks ≤ getBlockIndex s.man row then .ok (s, ⟨dest.len, fun _ => K.zero⟩) else
  match (if s.current ≠ getBlockIndex s.man row then loadBlock K i (getBlockIndex s.man row) packed unpacked s
      else .ok s) with
  | .ok s =>
    match TimeBlock.getData s.buffer (getRowWithinBlock s.man row) dest with
    | none => .ub
    | some dest => .ok (s, dest)
  | .ub => .ub
  | .hang => .hang
  | .error => .error

/-- A read: the row, the destination and the old contents of the read buffers. threadeddyscocolumn.cc:107-108. -/
structure Call (α : Type) where
  row : Nat
  dest : Buf α
  packed : Mem 8
  unpacked : Buf Nat

/-- A sequence of reads. Not in the code: calls of threadeddyscocolumn.cc:107-143. -/
def getAll {α : Type} (K : Codec α) (i : Nat) : List (Call α) → Reader α → Res (List (Buf α))
  | [], _ => .ok []
  | x :: xs, s =>
    match getValues K i x.row x.dest x.packed x.unpacked s with
    | .ok (s, d) =>
      match getAll K i xs s with
      | .ok ds => .ok (d :: ds)
      | .ub => .ub
      | .hang => .hang
      | .error => .error
    | .ub => .ub
    | .hang => .hang
    | .error => .error

end Dysco.End
