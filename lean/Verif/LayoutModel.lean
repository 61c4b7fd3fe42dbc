import Verif.AFModel
import Verif.WeightModel
import Verif.BytePackerModel
import Verif.FloatBits

/-!
# Layout of an encoded block

Model of the conversion between a time block and the bytes that are stored for it:
`CalculateBlockSize`, `encodeAndWrite` and `loadBlock` of threadeddyscocolumn.cc, with the data and weight
codecs of dyscodatacolumn.cc and dyscoweightcolumn.{cc,h}. Arithmetic is that of `float` and `double`.
-/

namespace Dysco.Layout
open BytePacker TimeBlock

/-- Outcome of a column operation. threadeddyscocolumn.cc:79-104, 272-294; undefined behaviour is an outcome. -/
inductive Res (α : Type) where
  | ok (a : α)
  /-- undefined behaviour -/
  | ub
  /-- the encoder has not ended within its fuel -/
  | hang
  /-- an exception -/
  | error

/-- `enum class Normalization`, dysconormalization.h:5. -/
inductive Norm where
  | af | rf | row
deriving DecidableEq

/-- `DyscoDataColumn::metaDataFloatCount`, dyscodatacolumn.cc:96-100. -/
def dataMetaCount (norm : Norm) (nRow nPol nCh nAnt : Nat) : Nat :=
  match norm with
  | .af => AF.metaDataCount nRow nPol nCh nAnt
  | .rf => RF.metaDataCount nRow nPol nCh nAnt
  | .row => Row.metaDataCount nRow nPol nCh nAnt

/-- `CalculateBlockSize`, threadeddyscocolumn.cc:348-357. -/
def blockSize (nMeta nSym bits : Nat) : Nat := 4 * nMeta + bufferSize nSym bits

/-- Value of four bytes, least significant first.
`reinterpret_cast<float *>` on a little endian machine, threadeddyscocolumn.cc:91, 282. -/
def le32 (m : Mem 8) (k : Nat) : Nat :=
  (m.get k).toNat + 2 ^ 8 * (m.get (k + 1)).toNat + 2 ^ 16 * (m.get (k + 2)).toNat +
    2 ^ 24 * (m.get (k + 3)).toNat

/-- `reinterpret_cast<float *>(packedBlock)`, threadeddyscocolumn.cc:283, 94. -/
def metaView (nMeta : Nat) (packed : Mem 8) : Buf Fl :=
  ⟨nMeta, fun i => if i < nMeta then Fl.ofBits (le32 packed (4 * i)) else .nan⟩

/-- The bytes of the buffer after the floats were written through that pointer. threadeddyscocolumn.cc:282-286. -/
def storeMeta (metaB : Buf Fl) (packed : Mem 8) : Mem 8 :=
  ⟨packed.len, fun j => if j < 4 * metaB.len then
    BitVec.ofNat 8 (Fl.toBits (metaB.get (j / 4)) / 2 ^ (8 * (j % 4))) else packed.get j⟩

/-- `packedSymbolBuffer + metaDataSize`. threadeddyscocolumn.cc:86-87, 283. -/
def tail (k : Nat) (m : Mem 8) : Mem 8 := ⟨m.len - k, fun i => m.get (k + i)⟩

/-- Array of `unsigned`. threadeddyscocolumn.cc:274, 307. -/
def symMem (s : Buf Nat) : Mem 32 := ⟨s.len, fun i => BitVec.ofNat 32 (s.get i)⟩
/-- threadeddyscocolumn.cc:88, 259-260. -/
def symBuf (m : Mem 32) : Buf Nat := ⟨m.len, fun i => (m.get i).toNat⟩

/-- `encodeAndWrite`, threadeddyscocolumn.cc:272-294: the bytes given to `writeCompressedData`. `packed`
and `unpacked` are the buffers of the thread (306-308), `enc` is the codec of the column. -/
def writeBlock (enc : Buf Fl → Buf Nat → Option (Option (Buf Fl × Buf Nat))) (bits nMeta nSym : Nat)
    (packed : Mem 8) (unpacked : Buf Nat) : Res (Mem 8) :=
  if packed.len < 4 * nMeta then .ub else
  match enc (metaView nMeta packed) unpacked with
  | none => .ub
  | some none => .hang
  | some (some (metaB, sym)) =>
    match pack bits (tail (4 * nMeta) (storeMeta metaB packed)) (symMem sym) nSym with
    | .ub => .ub
    | .error _ => .error
    | .ok bin =>
      if packed.len < blockSize nMeta nSym bits then .ub else
      .ok ⟨blockSize nMeta nSym bits, fun j =>
        if j < 4 * nMeta then (storeMeta metaB packed).get j else bin.get (j - 4 * nMeta)⟩

/-- `loadBlock`, threadeddyscocolumn.cc:79-104, after the block was read into `packed`: the new contents of
the time block buffer. `dec metaB sym r rows` decodes row `r`. -/
def readBlock {α : Type} (dec : Buf Fl → Buf Nat → Nat → Block α → Option (Block α))
    (bits nMeta nSym nRow : Nat) (dflt : DataRow α) (packed : Mem 8) (unpacked : Buf Nat)
    (rows : Block α) : Res (Block α) :=
  if packed.len < 4 * nMeta then .ub else
  match unpack bits (symMem unpacked) (tail (4 * nMeta) packed) nSym with
  | .ub => .ub
  | .error _ => .error
  | .ok sym =>
    match forRange nRow (fun r rows => dec (metaView nMeta packed) (symBuf sym) r rows)
        (rows.resize nRow dflt) with
    | none => .ub
    | some rows => .ok rows

/-- `DyscoDataColumn::encode`, dyscodatacolumn.cc:88-94 with 63-86. -/
def encData (norm : Norm) (sq : Fl → Fl) (e : Stochastic.Encoder) (nPol nCh nAnt : Nat)
    (dith : Nat → Nat) (fuel : Nat) (data : Block Cx) (metaB : Buf Fl) (sym : Buf Nat) :
    Option (Option (Buf Fl × Buf Nat)) :=
  match norm with
  | .af => AF.encode Fl.r32 Fl.r64 sq (encFn Fl.r32 e true) e.maxQuantity nPol nCh nAnt dith fuel data
      metaB sym
  | .rf => (RF.encode Fl.r32 Fl.r64 (encFn Fl.r32 e true) e.maxQuantity nPol nCh dith data metaB
      sym).map some
  | .row => (Row.encode Fl.r32 Fl.r64 (encFn Fl.r32 e true) e.maxQuantity nPol nCh dith data metaB
      sym).map some

/-- `DyscoDataColumn::initializeDecode` and `decode`, dyscodatacolumn.cc:51-61; `A r` are the antennas of
row `r` of the block. -/
def decData (norm : Norm) (e : Stochastic.Encoder) (nPol nCh nAnt : Nat) (A : Nat → Nat × Nat)
    (metaB : Buf Fl) (sym : Buf Nat) (r : Nat) (rows : Block Cx) : Option (Block Cx) :=
  match norm with
  | .af => AF.decode Fl.r32 Fl.r64 e.decode nPol nCh nAnt metaB rows sym r (A r).1 (A r).2
  | .rf => RF.decode Fl.r32 Fl.r64 e.decode nPol nCh metaB rows sym r (A r).1 (A r).2
  | .row => Row.decode Fl.r32 Fl.r64 e.decode nPol nCh metaB rows sym r (A r).1 (A r).2

/-- `DyscoWeightColumn::encode`, dyscoweightcolumn.cc:30-35. -/
def encWeight (nPol nCh bits : Nat) (rows : Block Fl) (metaB : Buf Fl) (sym : Buf Nat) :
    Option (Option (Buf Fl × Buf Nat)) :=
  (Weight.encode Fl.r32 Fl.r64 nPol nCh (2 ^ bits) rows metaB sym).map some

/-- `DyscoWeightColumn::initializeDecode` and `decode`, dyscoweightcolumn.cc:16-28. -/
def decWeight (nPol nCh bits : Nat) (metaB : Buf Fl) (sym : Buf Nat) (r : Nat) (rows : Block Fl) :
    Option (Block Fl) :=
  (metaB.rd 0).bind fun mx => Weight.decode Fl.r32 Fl.r64 nPol nCh (2 ^ bits) mx rows sym r

end Dysco.Layout
