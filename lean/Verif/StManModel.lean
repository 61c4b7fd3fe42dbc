import Verif.LayoutModel

/-!
# The storage manager

Model of header.h, serializable.h and the file handling of dyscostman.{h,cc}. Integers are natural numbers;
every conversion to a narrower type of the code is an explicit `%`. The file is an array of bytes: a write
after the end leaves zero bytes in between, and what was written is seen by later reads of the same stream
and after reopening (buffering of `std::fstream` is not modelled).
-/

namespace Dysco.StMan
open BytePacker Layout

/-- An element of the file. -/
abbrev Byte := BitVec 8

/-! ## Streams -/

/-- `seekp` and `write` of `n` bytes on the file. dyscostman.cc:440-441. -/
def fwrite (f : Mem 8) (off n : Nat) (g : Nat → Byte) : Mem 8 :=
  if n = 0 then f else
  ⟨max f.len (off + n), fun j => if off ≤ j ∧ j < off + n then g (j - off)
    else if j < f.len then f.get j else 0⟩

/-- `write` of a sequence of bytes. dyscostman.cc:201-208. -/
def fwriteList (f : Mem 8) (off : Nat) (l : List Byte) : Mem 8 :=
  fwrite f off l.length fun i => l.getD i 0

/-- `read` of `n` bytes at position `pos`; `none`: the stream fails. `readHeader` goes on with indeterminate values after
a failed read and raises an error at the end (dyscostman.cc:217); `open_indeterminate` (HeaderStream) shows that the
result is the same. -/
def fread (f : Mem 8) (pos n : Nat) : Option (List Byte) :=
  if pos + n ≤ f.len then some ((List.range n).map fun i => f.get (pos + i)) else none

/-- `SerializeToUInt8`..`SerializeToDouble`, serializable.h:15-50: the `n` bytes of a value on a little
endian machine. -/
def leBytes : Nat → Nat → List Byte
  | 0, _ => []
  | n + 1, v => BitVec.ofNat 8 v :: leBytes n (v / 256)

/-- `Unserialize<T>`, serializable.h:125-130: the value of those bytes. -/
def ofLe : List Byte → Nat
  | [] => 0
  | b :: l => b.toNat + 256 * ofLe l

/-- serializable.h:72-86, 125-130. -/
def readInt (n : Nat) (f : Mem 8) (pos : Nat) : Option Nat := (fread f pos n).map ofLe

/-! ## Header -/

/-- `struct Header`, header.h:11-32; the doubles are their 64 bits. -/
structure Header where
  headerSize : Nat
  columnHeaderOffset : Nat
  columnCount : Nat
  name : List Byte
  rowsPerBlock : Nat
  antennaCount : Nat
  blockSize : Nat
  versionMajor : Nat
  versionMinor : Nat
  dataBitCount : Nat
  weightBitCount : Nat
  distribution : Nat
  normalization : Nat
  studentTNu : Nat
  distributionTruncation : Nat
deriving DecidableEq

/-- `Header::calculateColumnHeaderOffset`, header.h:34-39. -/
def columnHeaderOffset (name : List Byte) : Nat := (7 * 4 + name.length + 2 * 2 + 4 * 1 + 2 * 8) % 2 ^ 32

/-- `Header::Serialize`, header.h:41-57, and `SerializeTo32bString`, serializable.h:66-70. -/
def Header.serialize (h : Header) : List Byte :=
  leBytes 4 h.headerSize ++ leBytes 4 h.columnHeaderOffset ++ leBytes 4 h.columnCount ++
  (leBytes 4 h.name.length ++ h.name) ++
  leBytes 4 h.rowsPerBlock ++ leBytes 4 h.antennaCount ++ leBytes 4 h.blockSize ++
  leBytes 2 h.versionMajor ++ leBytes 2 h.versionMinor ++
  leBytes 1 h.dataBitCount ++ leBytes 1 h.weightBitCount ++ leBytes 1 h.distribution ++
  leBytes 1 h.normalization ++ leBytes 8 h.studentTNu ++ leBytes 8 h.distributionTruncation

/-- `Header::Unserialize`, header.h:59-80, and `Unserialize32bString`, serializable.h:116-122, from the
start of the file. The allocation of the name is assumed to succeed. -/
def Header.unserialize (f : Mem 8) : Option Header :=
  (readInt 4 f 0).bind fun headerSize =>
  (readInt 4 f 4).bind fun columnHeaderOffset =>
  (readInt 4 f 8).bind fun columnCount =>
  (readInt 4 f 12).bind fun size =>
  (fread f 16 size).bind fun name =>
  (readInt 4 f (16 + size)).bind fun rowsPerBlock =>
  (readInt 4 f (20 + size)).bind fun antennaCount =>
  (readInt 4 f (24 + size)).bind fun blockSize =>
  (readInt 2 f (28 + size)).bind fun versionMajor =>
  (readInt 2 f (30 + size)).bind fun versionMinor =>
  (readInt 1 f (32 + size)).bind fun dataBitCount =>
  (readInt 1 f (33 + size)).bind fun weightBitCount =>
  (readInt 1 f (34 + size)).bind fun distribution =>
  (readInt 1 f (35 + size)).bind fun normalization =>
  (readInt 8 f (36 + size)).bind fun studentTNu =>
  (readInt 8 f (44 + size)).bind fun distributionTruncation =>
  some ⟨headerSize, columnHeaderOffset, columnCount, name, rowsPerBlock, antennaCount, blockSize,
    versionMajor, versionMinor, dataBitCount, weightBitCount, distribution, normalization, studentTNu,
    distributionTruncation⟩

/-! ## Columns and manager -/

/-- The normalisation with the given number, dysconormalization.h:5. Other numbers occur only in damaged
files; the code then has no encoder object (C121). -/
def normOf (n : Nat) : Norm := if n = 0 then .af else if n = 1 then .rf else .row

/-- What the manager sees of a column: threadeddyscocolumn.h:208-225, dyscostmancol.h:115. -/
structure Column where
  /-- data column or weight column -/
  isData : Bool
  /-- `_shape` -/
  nPol : Nat
  nCh : Nat
  /-- `_bitsPerSymbol` -/
  bits : Nat
  /-- normalisation given to `Prepare` -/
  norm : Norm
  /-- `_blockSize` -/
  blockSize : Nat
  /-- `_antennaCount` -/
  antennaCount : Nat
  /-- `_offsetInBlock` -/
  offset : Nat

/-- `metaDataFloatCount`, dyscodatacolumn.cc:96-100, dyscoweightcolumn.h:53-57. -/
def Column.metaCount (c : Column) (nRow nAnt : Nat) : Nat :=
  if c.isData then dataMetaCount c.norm nRow c.nPol c.nCh nAnt else Weight.metaDataFloatCount

/-- `symbolCount`, dyscodatacolumn.cc:102-105, dyscoweightcolumn.h:59-62. -/
def Column.symCount (c : Column) (nRow : Nat) : Nat :=
  if c.isData then TimeBlock.symbolCount nRow c.nPol c.nCh else Weight.symbolCount nRow c.nCh

/-- `CalculateBlockSize`, threadeddyscocolumn.cc:348-357. -/
def Column.calcSize (c : Column) (nRow nAnt : Nat) : Nat :=
  Layout.blockSize (c.metaCount nRow nAnt) (c.symCount nRow) c.bits

/-- The fields of `DyscoStMan`, dyscostman.h:386-404. `failed` is the fail bit of the stream. -/
structure Man where
  nRow : Nat
  nBlocks : Nat
  rowsPerBlock : Nat
  antennaCount : Nat
  blockSize : Nat
  headerSize : Nat
  name : List Byte
  dataBitCount : Nat
  weightBitCount : Nat
  distribution : Nat
  normalization : Nat
  studentTNu : Nat
  distributionTruncation : Nat
  columns : List Column
  file : Mem 8
  failed : Bool

/-- `DyscoStMan::create`, dyscostman.cc:167-176. -/
def create (nRow : Nat) (m : Man) : Man :=
  { m with nRow := nRow, file := ⟨0, fun _ => 0⟩, failed := false, nBlocks := 0 }

/-- The bytes of a column header: `GenericColumnHeader`, header.h:86-99, with the column's own header,
threadeddyscocolumn.cc:360-366 and threadeddyscocolumn.h:178-183. -/
def Column.header (c : Column) : List Byte :=
  leBytes 4 (4 + 8) ++ (leBytes 4 c.blockSize ++ leBytes 4 c.antennaCount)

/-- `_headerSize` after `writeHeader`, dyscostman.cc:195-198. `sizeof(GenericColumnHeader)` is 16: a
pointer to the table of virtual functions, an `uint32_t` and padding. -/
def headerSizeOf (name : List Byte) (columns : List Column) : Nat :=
  columns.foldl (fun s _ => (s + (16 + 8)) % 2 ^ 32) (columnHeaderOffset name)

/-- The header filled in by `writeHeader`, dyscostman.cc:180-199. -/
def Man.header (m : Man) : Header :=
  { headerSize := headerSizeOf m.name m.columns
    columnHeaderOffset := columnHeaderOffset m.name
    columnCount := m.columns.length % 2 ^ 32
    name := m.name
    rowsPerBlock := m.rowsPerBlock
    antennaCount := m.antennaCount
    blockSize := m.blockSize
    versionMajor := 1
    versionMinor := 0
    dataBitCount := m.dataBitCount % 2 ^ 8
    weightBitCount := m.weightBitCount % 2 ^ 8
    distribution := m.distribution % 2 ^ 8
    normalization := m.normalization % 2 ^ 8
    studentTNu := m.studentTNu
    distributionTruncation := m.distributionTruncation }

/-- All bytes written by `writeHeader`, dyscostman.cc:201-208. -/
def Man.headerBytes (m : Man) : List Byte :=
  m.header.serialize ++ (m.columns.map Column.header).flatten

/-- `writeHeader`, dyscostman.cc:178-211; `false`: an exception. -/
def writeHeader (m : Man) : Man × Bool :=
  if m.failed then ({ m with headerSize := headerSizeOf m.name m.columns }, false) else
  ({ m with
      headerSize := headerSizeOf m.name m.columns
      file := fwriteList m.file 0 m.headerBytes }, true)

/-- The loop over the column headers in `readHeader`, dyscostman.cc:251-258. -/
def readColumns (f : Mem 8) : Nat → List Column → Option (List Column)
  | _, [] => some []
  | off, c :: cs =>
    (readInt 4 f off).bind fun size =>
    (readInt 4 f (off + 4)).bind fun blockSize =>
    (readInt 4 f (off + 8)).bind fun antennaCount =>
    (readColumns f (off + size) cs).bind fun cs' =>
    some ({ c with blockSize := blockSize, antennaCount := antennaCount } :: cs')

/-- The manager after `open`, dyscostman.cc:220-232, 301-304. -/
def opened (nRow : Nat) (m : Man) (f : Mem 8) (h : Header) (cols : List Column) : Man :=
  { m with
    nRow := nRow
    headerSize := h.headerSize
    name := h.name
    dataBitCount := h.dataBitCount
    weightBitCount := h.weightBitCount
    distribution := h.distribution
    normalization := h.normalization
    studentTNu := h.studentTNu
    distributionTruncation := h.distributionTruncation
    rowsPerBlock := h.rowsPerBlock
    antennaCount := h.antennaCount
    blockSize := h.blockSize
    columns := cols
    file := f
    failed := false
    nBlocks := if f.len > h.headerSize then (f.len - h.headerSize) / h.blockSize else 0 }

/-- `open` with `readHeader`, dyscostman.cc:213-259, 284-305, on an existing file; `m` has the columns of
the table. A failed column header is reported by the check after `seekg`, line 298. -/
def openFile (nRow : Nat) (m : Man) (f : Mem 8) : Res Man :=
  match Header.unserialize f with
  | none => .error
  | some h =>
    if h.versionMajor ≠ 1 ∨ h.versionMinor ≠ 0 then .error else
    if h.columnCount ≠ m.columns.length then .error else
    match readColumns f h.columnHeaderOffset m.columns with
    | none => .error
    | some cols =>
      if f.len > h.headerSize ∧ h.blockSize = 0 then .ub else .ok (opened nRow m f h cols)

/-! ## Block layout -/

/-- `getBlockIndex`, dyscostman.h:269. -/
def getBlockIndex (m : Man) (row : Nat) : Nat := row / m.rowsPerBlock
/-- `getRowWithinBlock`, dyscostman.h:279. -/
def getRowWithinBlock (m : Man) (row : Nat) : Nat := row % m.rowsPerBlock
/-- `getRowIndex`, dyscostman.h:286-288. -/
def getRowIndex (m : Man) (block : Nat) : Nat := block * m.rowsPerBlock
/-- `areOffsetsInitialized`, dyscostman.h:296. -/
def areOffsetsInitialized (m : Man) : Bool := m.rowsPerBlock != 0
/-- `getFileOffset`, dyscostman.h:326-328. -/
def getFileOffset (m : Man) (block : Nat) : Nat := m.blockSize * block + m.headerSize

/-- The loop of `initializeRowsPerBlock`, dyscostman.cc:272-280, with the sizes set by
`InitializeAfterNRowsPerBlockIsKnown`, threadeddyscocolumn.cc:255-256: new columns and `_blockSize`. The
exceptions of the latter belong to the column model. -/
def layoutColumns (rows ants : Nat) : List Column → Nat → List Column × Nat
  | [], bs => ([], bs)
  | c :: cs, bs =>
    let rest := layoutColumns rows ants cs ((bs + c.calcSize rows ants) % 2 ^ 32)
    ({ c with
        offset := bs
        antennaCount := ants % 2 ^ 32
        blockSize := c.calcSize (rows % 2 ^ 32) (ants % 2 ^ 32) } :: rest.1, rest.2)

/-- `initializeRowsPerBlock`, dyscostman.cc:261-282. -/
def initializeRowsPerBlock (rows ants : Nat) (write : Bool) (m : Man) : Man × Bool :=
  if areOffsetsInitialized m ∧ (rows ≠ m.rowsPerBlock ∨ ants ≠ m.antennaCount) then (m, false) else
  let lay := layoutColumns rows ants m.columns 0
  let m1 := { m with
    rowsPerBlock := rows % 2 ^ 32
    antennaCount := ants % 2 ^ 32
    columns := lay.1
    blockSize := lay.2 }
  if write then writeHeader m1 else (m1, true)

/-- `prepare`, dyscostman.cc:351-376. -/
def prepare (m : Man) : Man × Bool :=
  if m.dataBitCount = 0 ∨ m.weightBitCount = 0 then (m, false) else
  let m1 := { m with
    columns := m.columns.map fun c =>
      { c with
        bits := if c.isData then m.dataBitCount else m.weightBitCount
        norm := normOf m.normalization } }
  if areOffsetsInitialized m1 then initializeRowsPerBlock m1.rowsPerBlock m1.antennaCount false m1
  else (m1, true)

/-! ## Blocks -/

/-- `writeCompressedData`, dyscostman.cc:432-445. -/
def writeCompressedData (block : Nat) (c : Column) (data : Mem 8) (size : Nat) (m : Man) : Man × Bool :=
  let m1 := { m with nBlocks := if m.nBlocks ≤ block then block + 1 else m.nBlocks }
  if m.failed then (m1, false) else
  ({ m1 with file := fwrite m1.file (getFileOffset m1 block + c.offset) size data.get }, true)

/-- `readCompressedData`, dyscostman.cc:413-430, into a buffer of at least `size` bytes: the new manager
and buffer and whether no exception was raised. A short read fills the start of the buffer. -/
def readCompressedData (block : Nat) (c : Column) (dest : Mem 8) (size : Nat) (m : Man) :
    Man × Mem 8 × Bool :=
  let off := getFileOffset m block + c.offset
  let dest' : Mem 8 := if m.failed then dest else
    ⟨dest.len, fun i => if i < size ∧ off + i < m.file.len then m.file.get (off + i) else dest.get i⟩
  if m.failed ∨ m.file.len < off + size then
    if block + 1 ≠ m.nBlocks then ({ m with failed := true }, dest', false)
    else ({ m with failed := false }, dest', true)
  else (m, dest', true)

/-! ## Rows and columns -/

/-- `addRow`, dyscostman.cc:380. -/
def addRow (n : Nat) (m : Man) : Man := { m with nRow := (m.nRow + n) % 2 ^ 64 }

/-- `removeRow`, dyscostman.cc:382-388; `_nRow - 1` is modulo `2^64`. -/
def removeRow (row : Nat) (m : Man) : Man × Bool :=
  if row ≠ (m.nRow + (2 ^ 64 - 1)) % 2 ^ 64 then (m, false) else
  ({ m with nRow := (m.nRow + (2 ^ 64 - 1)) % 2 ^ 64 }, true)

/-- `addColumn`, dyscostman.cc:390-397; the column was appended by `makeDirArrColumn`, 316-336. -/
def addColumn (m : Man) : Man × Bool :=
  if m.nBlocks ≠ 0 then (m, false) else
  match prepare m with
  | (m1, false) => (m1, false)
  | (m1, true) => writeHeader m1

/-- `removeColumn`, dyscostman.cc:399-411, of the column with index `i`. -/
def removeColumn (i : Nat) (m : Man) : Man × Bool :=
  if i < m.columns.length then writeHeader { m with columns := m.columns.eraseIdx i } else (m, false)

/-! ## Specification record -/

/-- The fields of the `Record`, dyscostman.cc:120-156. -/
structure Spec where
  dataBitCount : Nat
  weightBitCount : Nat
  distribution : String
  normalization : String
  studentTNu : Option Nat
  distributionTruncation : Nat

/-- dyscostman.cc:124-138. -/
def distributionName (d : Nat) : String :=
  if d = 0 then "Gaussian" else if d = 1 then "Uniform" else if d = 2 then "StudentsT"
  else if d = 3 then "TruncatedGaussian" else ""

/-- dyscostman.cc:140-151. -/
def normalizationName (n : Nat) : String :=
  if n = 0 then "AF" else if n = 1 then "RF" else if n = 2 then "Row" else ""

/-- `dataManagerSpec`, dyscostman.cc:120-156. -/
def dataManagerSpec (m : Man) : Spec :=
  ⟨m.dataBitCount, m.weightBitCount, distributionName m.distribution, normalizationName m.normalization,
    some m.studentTNu, m.distributionTruncation⟩

/-- dyscostman.cc:83-93. -/
def distributionOf (s : String) : Option Nat :=
  if s = "Uniform" then some 1 else if s = "Gaussian" then some 0 else if s = "StudentT" then some 2
  else if s = "TruncatedGaussian" then some 3 else none

/-- dyscostman.cc:94-102. -/
def normalizationOf (s : String) : Option Nat :=
  if s = "RF" then some 1 else if s = "AF" then some 0 else if s = "Row" then some 2 else none

/-- The constructor from a record, dyscostman.cc:34-52, with `setFromSpec`, 71-109; an empty record is
`none`. The result is `none` for an exception. -/
def ofSpec (name : List Byte) (spec : Option Spec) : Option Man :=
  let m : Man := ⟨0, 0, 0, 0, 0, 0, name, 0, 0, 0, 0, 0, 0, [], ⟨0, fun _ => 0⟩, false⟩
  match spec with
  | none => some m
  | some s =>
    if s.dataBitCount = 0 then none else
    if s.weightBitCount = 0 then none else
    (distributionOf s.distribution).bind fun d =>
    (normalizationOf s.normalization).map fun n =>
    { m with
      dataBitCount := s.dataBitCount
      weightBitCount := s.weightBitCount
      distribution := d
      normalization := n
      studentTNu := s.studentTNu.getD 0
      distributionTruncation := s.distributionTruncation }

end Dysco.StMan
