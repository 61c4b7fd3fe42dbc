import Verif.LoopModel
import Verif.StochasticModel

/-!
# Model of `timeblockbuffer.h` and of the parts that the time block encoders share

`RF` and `RD` are the roundings to `float` and `double` (or exact arithmetic). Conversions from `float`
to `double` are exact. `ConvertVector` (timeblockbuffer.h:60-73), which copies the block with that
conversion, is the identity in this model.
-/

namespace Dysco

/-- `std::complex<float>` or `std::complex<double>`. timeblockbuffer.h:23. -/
structure Cx where
  re : Fl
  im : Fl

/-- `v *= factor` with a real factor: both parts are multiplied. aftimeblockencoder.cc:10, 95, 300. -/
def Cx.scale (R : ℚ → Fl) (v : Cx) (factor : Fl) : Cx := ⟨Fl.mul R v.re factor, Fl.mul R v.im factor⟩

/-- `v /= divisor` with a real divisor. aftimeblockencoder.cc:286. -/
def Cx.divBy (R : ℚ → Fl) (v : Cx) (d : Fl) : Cx := ⟨Fl.div R v.re d, Fl.div R v.im d⟩

namespace TimeBlock

/-- `SetData`, timeblockbuffer.h:30-39. `dflt` is the content of value-initialised rows,
`zero` that of value-initialised elements. -/
def setData {α : Type} (zero : α) (nPol nCh : Nat) (b : Block α) (blockRow antenna1 antenna2 : Nat)
    (data : Buf α) : Option (Block α) :=
  let b := if b.len ≤ blockRow then b.resize (blockRow + 1) ⟨0, 0, ⟨0, fun _ => zero⟩⟩ else b
  (b.rd blockRow).bind fun row =>
  (forRange (nPol * nCh) (fun i (vis : Buf α) => (data.rd i).bind fun x => vis.wr i x)
    (row.vis.resize (nPol * nCh) zero)).bind fun vis =>
  b.wr blockRow ⟨antenna1, antenna2, vis⟩

/-- `GetData`, timeblockbuffer.h:41-45: `memcpy` of the row to the destination. -/
def getData {α : Type} (b : Block α) (blockRow : Nat) (dest : Buf α) : Option (Buf α) :=
  (b.rd blockRow).bind fun row =>
  forRange row.vis.len (fun i d => (row.vis.rd i).bind fun x => d.wr i x) dest

/-- `NRows`, timeblockbuffer.h:47. -/
def nRows {α : Type} (b : Block α) : Nat := b.len

/-- `ResetData`, timeblockbuffer.h:28. -/
def resetData {α : Type} (b : Block α) : Block α := ⟨0, b.get⟩

/-- `MaxAntennaIndex`, timeblockbuffer.h:49-56. -/
def maxAntennaIndex {α : Type} (b : Block α) : Option Nat :=
  forRange b.len (fun i m => (b.rd i).map fun row => max m (max row.antenna1 row.antenna2)) 0

/-- `data[r].visibilities[i] = f(data[r].visibilities[i])`. aftimeblockencoder.cc:10, 286, 300. -/
def updVis (data : Block Cx) (r i : Nat) (f : Cx → Cx) : Option (Block Cx) :=
  (data.rd r).bind fun row => (row.vis.rd i).bind fun v => (row.vis.wr i (f v)).bind fun vis =>
    data.wr r { row with vis := vis }

/-- `data[r].visibilities[i]`. aftimeblockencoder.cc:133, 173, 279. -/
def rdVis (data : Block Cx) (r i : Nat) : Option Cx := (data.rd r).bind fun row => row.vis.rd i

/-- `std::max(std::fabs(v.real()), std::fabs(v.imag()))`. rftimeblockencoder.cc:28, 54. -/
def absMax (v : Cx) : Fl := Fl.stdMax (Fl.abs v.re) (Fl.abs v.im)

/-- `if (std::isfinite(m)) maxVal = std::max(maxVal, m)` (rowtimeblockencoder.cc:54,
rftimeblockencoder.cc:28-29), which is the same as
`if (std::isfinite(m) && m > maxVal) maxVal = m` (rftimeblockencoder.cc:55-56). -/
def maxStep (mx m : Fl) : Fl := if m.isFinite then Fl.stdMax mx m else mx

/-- `if (UseDithering) gausEncoder.EncodeWithDithering(v, _ditherDist(*rnd)) else gausEncoder.Encode(v)`,
rowtimeblockencoder.cc:65-75 (and the same in the other two); `d` is the value drawn. -/
def encFn (R : ℚ → Fl) (e : Stochastic.Encoder) (useDithering : Bool) (v : Fl) (d : Nat) : Option Nat :=
  if useDithering then e.encodeDither R v d else e.encode v

/-- State of the symbol writing loop: symbols, pointer offset, number of dither values drawn.
aftimeblockencoder.cc:313. -/
structure Out where
  sym : Buf Nat
  ptr : Nat
  drawn : Nat

/-- One visibility: `symbolBufferPtr[i * 2] = …real…; symbolBufferPtr[i * 2 + 1] = …imag…`.
aftimeblockencoder.cc:316-325. -/
def quantiseVis (RF : ℚ → Fl) (enc : Fl → Nat → Option Nat) (dith : Nat → Nat) (i : Nat) (v : Cx)
    (st : Out) : Option Out :=
  (enc (Fl.cast RF v.re) (dith st.drawn)).bind fun s =>
  (st.sym.wr (st.ptr + i * 2) s).bind fun sym =>
  (enc (Fl.cast RF v.im) (dith (st.drawn + 1))).bind fun s' =>
  (sym.wr (st.ptr + (i * 2 + 1)) s').map fun sym => ⟨sym, st.ptr, st.drawn + 2⟩

/-- The final loop of the three `encode` functions, rowtimeblockencoder.cc:62-78,
rftimeblockencoder.cc:88-104, aftimeblockencoder.cc:312-328. `enc` is `EncodeWithDithering` or `Encode`
(which ignores the dither value); its argument is converted to `float`. -/
def quantise (RF : ℚ → Fl) (enc : Fl → Nat → Option Nat) (dith : Nat → Nat) (visPerRow : Nat)
    (data : Block Cx) (sym : Buf Nat) : Option (Buf Nat) :=
  (forRange data.len (fun r st => (data.rd r).bind fun row =>
    (forRange visPerRow (fun i st => (row.vis.rd i).bind fun v => quantiseVis RF enc dith i v st)
      st).map fun st => { st with ptr := st.ptr + visPerRow * 2 }) ⟨sym, 0, 0⟩).map Out.sym

/-- Decoding loop of a row: `real`, then `imag`, rowtimeblockencoder.cc:27-35,
rftimeblockencoder.cc:137-145, aftimeblockencoder.cc:427-438: `factor i` is the factor of visibility `i`,
`dec` is `gausEncoder.Decode`. -/
def decodeRow (RF RD : ℚ → Fl) (dec : Nat → Option Fl) (visPerRow : Nat)
    (factor : Nat → Option Fl) (rows : Block Cx) (sym : Buf Nat) (blockRow antenna1 antenna2 : Nat) :
    Option (Block Cx) :=
  (rows.rd blockRow).bind fun row =>
  (forRange visPerRow (fun i (vis : Buf Cx) =>
    (factor i).bind fun f =>
    (sym.rd (blockRow * (visPerRow * 2) + 2 * i)).bind fun s =>
    (dec s).bind fun l =>
    (sym.rd (blockRow * (visPerRow * 2) + (2 * i + 1))).bind fun s' =>
    (dec s').bind fun l' =>
    vis.wr i ⟨Fl.cast RF (Fl.mul RD l f), Fl.cast RF (Fl.mul RD l' f)⟩)
    (row.vis.resize visPerRow ⟨.fin 0, .fin 0⟩)).bind fun vis =>
  rows.wr blockRow ⟨antenna1, antenna2, vis⟩

/-- `SymbolCount`, rowtimeblockencoder.h:44-47 (and 49-51), rftimeblockencoder.h:44-47,
aftimeblockencoder.h:44-47. -/
def symbolCount (nRow nPol nCh : Nat) : Nat := nRow * nCh * nPol * 2

/-- `SymbolsPerRow`, rowtimeblockencoder.h:53-55 and the same in the other two. -/
def symbolsPerRow (nPol nCh : Nat) : Nat := nCh * nPol * 2

end TimeBlock

namespace Row
open TimeBlock

/-- `MetaDataCount`, rowtimeblockencoder.h:57-61. -/
def metaDataCount (nRow _nPol _nCh _nAnt : Nat) : Nat := nRow

/-- Largest component of a row, rowtimeblockencoder.cc:50-55. -/
def rowMax (visPerRow : Nat) (vis : Buf Cx) : Option Fl :=
  forRange visPerRow (fun i mx => (vis.rd i).map fun v => maxStep mx (absMax v)) (.fin 0)

/-- `factor = (maxVal == 0.0) ? 1.0 : maxLevel / maxVal`, rowtimeblockencoder.cc:56. -/
def rowFactor (RD : ℚ → Fl) (maxLevel mx : Fl) : Fl :=
  if Fl.eq mx (.fin 0) then .fin 1 else Fl.div RD maxLevel mx

/-- `for (i) row.visibilities[i] *= factor`, rowtimeblockencoder.cc:57. -/
def scaleRow (RD : ℚ → Fl) (visPerRow : Nat) (data : Block Cx) (r : Nat) (factor : Fl) :
    Option (Block Cx) :=
  forRange visPerRow (fun i data => updVis data r i fun v => v.scale RD factor) data

/-- Normalisation of all rows, rowtimeblockencoder.cc:46-60. -/
def normalize (RF RD : ℚ → Fl) (visPerRow : Nat) (maxLevel : Fl) (data : Block Cx) (metaB : Buf Fl) :
    Option (Block Cx × Buf Fl) :=
  forRange data.len (fun r (st : Block Cx × Buf Fl) =>
    (st.1.rd r).bind fun row =>
    (rowMax visPerRow row.vis).bind fun mx =>
    (scaleRow RD visPerRow st.1 r (rowFactor RD maxLevel mx)).bind fun data =>
    (st.2.wr r (Fl.cast RF (Fl.div RD mx maxLevel))).map fun metaB => (data, metaB)) (data, metaB)

/-- `encode`, rowtimeblockencoder.cc:38-79. -/
def encode (RF RD : ℚ → Fl) (enc : Fl → Nat → Option Nat) (maxLevel : Fl) (nPol nCh : Nat)
    (dith : Nat → Nat) (data : Block Cx) (metaB : Buf Fl) (sym : Buf Nat) :
    Option (Buf Fl × Buf Nat) :=
  (normalize RF RD (nPol * nCh) maxLevel data metaB).bind fun st =>
  (quantise RF enc dith (nPol * nCh) st.1 sym).map fun sym => (st.2, sym)

/-- `InitializeDecode` (rowtimeblockencoder.cc:12-15) copies the metadata; `Decode`,
rowtimeblockencoder.cc:17-36. -/
def decode (RF RD : ℚ → Fl) (dec : Nat → Option Fl) (nPol nCh : Nat) (metaB : Buf Fl)
    (rows : Block Cx) (sym : Buf Nat) (blockRow antenna1 antenna2 : Nat) : Option (Block Cx) :=
  decodeRow RF RD dec (nPol * nCh) (fun _ => metaB.rd blockRow) rows sym blockRow antenna1 antenna2

end Row

namespace RF
open TimeBlock

/-- `MetaDataCount`, rftimeblockencoder.h:57-60. -/
def metaDataCount (nRow nPol nCh _nAnt : Nat) : Nat := nPol * (nCh + nRow)

/-- Largest component of one row and polarisation, rftimeblockencoder.cc:24-30. -/
def polMax (nPol nCh : Nat) (data : Block Cx) (r p : Nat) : Option Fl :=
  forRange nCh (fun ch mx => (rdVis data r (ch * nPol + p)).map fun v => maxStep mx (absMax v)) (.fin 0)

/-- `(maxLevel == 0.0) ? 1.0 : max_val / maxLevel`, rftimeblockencoder.cc:39-40. -/
def rowMeta (RD : ℚ → Fl) (maxLevel mx : Fl) : Fl :=
  if Fl.eq maxLevel (.fin 0) then .fin 1 else Fl.div RD mx maxLevel

/-- `maximizeRows`, rftimeblockencoder.cc:16-43. -/
def maximizeRows (RF RD : ℚ → Fl) (nPol nCh : Nat) (maxLevel : Fl) (st : Block Cx × Buf Fl) :
    Option (Block Cx × Buf Fl) :=
  forRange st.1.len (fun r st =>
    forRange nPol (fun p (st : Block Cx × Buf Fl) =>
      (polMax nPol nCh st.1 r p).bind fun mx =>
      (forRange nCh (fun ch data => updVis data r (ch * nPol + p) fun v =>
        v.scale RD (Row.rowFactor RD maxLevel mx)) st.1).bind fun data =>
      (st.2.wr (nPol * nCh + (r * nPol + p)) (Fl.cast RF (rowMeta RD maxLevel mx))).map
        fun metaB => (data, metaB)) st) st

/-- Largest component of one channel and polarisation, rftimeblockencoder.cc:51-57. -/
def chanMax (data : Block Cx) (i : Nat) : Option Fl :=
  forRange data.len (fun r mx => (rdVis data r i).map fun v => maxStep mx (absMax v)) (.fin 0)

/-- `factor`, rftimeblockencoder.cc:58-61. -/
def chanFactor (RD : ℚ → Fl) (maxLevel mx : Fl) : Fl :=
  if Fl.eq maxLevel (.fin 0) || Fl.eq mx (.fin 0) then .fin 1 else Fl.div RD maxLevel mx

/-- `maximizeChannels`, rftimeblockencoder.cc:45-67. -/
def maximizeChannels (RF RD : ℚ → Fl) (nPol nCh : Nat) (maxLevel : Fl) (st : Block Cx × Buf Fl) :
    Option (Block Cx × Buf Fl) :=
  forRange (nPol * nCh) (fun i (st : Block Cx × Buf Fl) =>
    (chanMax st.1 i).bind fun mx =>
    (st.2.wr i (Fl.cast RF (Fl.div RD (.fin 1) (chanFactor RD maxLevel mx)))).bind fun metaB =>
    (forRange st.1.len (fun r data => updVis data r i fun v =>
      v.scale RD (chanFactor RD maxLevel mx)) st.1).map fun data => (data, metaB)) st

/-- `encode`, rftimeblockencoder.cc:69-105. -/
def encode (RF RD : ℚ → Fl) (enc : Fl → Nat → Option Nat) (maxLevel : Fl) (nPol nCh : Nat)
    (dith : Nat → Nat) (data : Block Cx) (metaB : Buf Fl) (sym : Buf Nat) :
    Option (Buf Fl × Buf Nat) :=
  (maximizeRows RF RD nPol nCh maxLevel (data, metaB)).bind fun st =>
  (maximizeChannels RF RD nPol nCh maxLevel st).bind fun st =>
  (quantise RF enc dith (nPol * nCh) st.1 sym).map fun sym => (st.2, sym)

/-- `InitializeDecode` (rftimeblockencoder.cc:118-123) splits the metadata in channel and row factors;
`Decode`, rftimeblockencoder.cc:125-146. -/
def decode (RF RD : ℚ → Fl) (dec : Nat → Option Fl) (nPol nCh : Nat) (metaB : Buf Fl)
    (rows : Block Cx) (sym : Buf Nat) (blockRow antenna1 antenna2 : Nat) : Option (Block Cx) :=
  decodeRow RF RD dec (nPol * nCh) (fun i => (metaB.rd i).bind fun ch =>
    (metaB.rd (nPol * nCh + (blockRow * nPol + i % nPol))).map fun row => Fl.mul RD ch row)
    rows sym blockRow antenna1 antenna2

end RF

end Dysco
