import Verif.LoopModel

/-!
# Model of `weightblockencoder.h` and `weightencoder.h`

`RF` and `RD` are the roundings to `float` and `double`; conversions from `float` to `double` are exact.
-/

namespace Dysco.Weight

/-- `roundf` (ties away from zero). The result is an integer that fits the float format. weightencoder.h:52. -/
def roundf : Fl → Fl
  | .fin q => .fin (if 0 ≤ q then (⌊q + 1 / 2⌋ : ℚ) else -(⌊-q + 1 / 2⌋ : ℚ))
  | x => x

/-- Conversion of an integral floating value to `unsigned`: undefined unless the value fits. weightencoder.h:52. -/
def toUnsigned : Fl → Option Nat
  | .fin q => if 0 ≤ q ∧ q < 2 ^ 32 then some ⌊q⌋.toNat else none
  | _ => none

/-- The smallest weight over the polarisations of channel `ch`, weightblockencoder.h:45-48 and 59-62.
The loop `for (p = 1; p != nPol; ++p)` runs `nPol - 1` times; for `nPol = 0` it does not stop at the end
of the row but runs out of the buffer (undefined). -/
def minWeight (nPol : Nat) (vis : Buf Fl) (ch : Nat) : Option Fl :=
  if nPol = 0 then none else
  (vis.rd (ch * nPol)).bind fun w0 =>
    forRange (nPol - 1)
      (fun k w => (vis.rd (ch * nPol + (k + 1))).map fun v => if Fl.lt v w then v else w) w0

/-- First loop of `Encode`, weightblockencoder.h:42-51: the largest of the smallest weights. -/
def maxLoop (nPol nCh : Nat) (rows : Block Fl) : Option Fl :=
  forRange rows.len (fun r mx => (rows.rd r).bind fun row =>
    forRange nCh (fun ch mx => (minWeight nPol row.vis ch).map fun w => if Fl.lt mx w then w else mx)
      mx) (.fin 0)

/-- `if (maxValue == 0.0) maxValue = 1.0`, weightblockencoder.h:52. -/
def nonZeroMax (mx : Fl) : Fl := if Fl.eq mx (.fin 0) then .fin 1 else mx

/-- `*symbolBuffer = roundf(double(weight) * scaleValue)` with
`scaleValue = double(_quantCount - 1) / maxValue`, weightblockencoder.h:55, 64. -/
def encodeSample (RF RD : ℚ → Fl) (q : Nat) (mx w : Fl) : Option Nat :=
  toUnsigned (roundf (Fl.cast RF (Fl.mul RD w (Fl.div RD (.fin ((q - 1 : Nat) : ℚ)) mx))))

/-- `Encode`, weightblockencoder.h:40-68. Returns the metadata and symbol buffers. -/
def encode (RF RD : ℚ → Fl) (nPol nCh q : Nat) (rows : Block Fl) (metaB : Buf Fl) (sym : Buf Nat) :
    Option (Buf Fl × Buf Nat) :=
  (maxLoop nPol nCh rows).bind fun mx =>
  (metaB.wr 0 (nonZeroMax mx)).bind fun metaB =>
  (forRange rows.len (fun r (st : Buf Nat × Nat) => (rows.rd r).bind fun row =>
    forRange nCh (fun ch (st : Buf Nat × Nat) =>
      (minWeight nPol row.vis ch).bind fun w =>
      (encodeSample RF RD q (nonZeroMax mx) w).bind fun s =>
      (st.1.wr st.2 s).map fun sb => (sb, st.2 + 1)) st) (sym, 0)).map fun st => (metaB, st.1)

/-- `float value = *rowBuffer * scaleValue` with `scaleValue = _decodeMaxValue / double(_quantCount - 1)`,
weightblockencoder.h:28, 32. -/
def decodeSample (RF RD : ℚ → Fl) (q : Nat) (mx : Fl) (s : Nat) : Fl :=
  Fl.cast RF (Fl.mul RD (.fin s) (Fl.div RD mx (.fin ((q - 1 : Nat) : ℚ))))

/-- `Decode`, weightblockencoder.h:26-38, after `InitializeDecode` (22-24) read `mx = metaBuffer[0]`.
Returns the buffer with the row filled in. -/
def decode (RF RD : ℚ → Fl) (nPol nCh q : Nat) (mx : Fl) (rows : Block Fl) (sym : Buf Nat)
    (blockRow : Nat) : Option (Block Fl) :=
  (rows.rd blockRow).bind fun row =>
  (forRange nCh (fun ch (vis : Buf Fl) =>
    (sym.rd (blockRow * nCh + ch)).bind fun s =>
    forRange nPol (fun p vis => vis.wr (ch * nPol + p) (decodeSample RF RD q mx s))
      (vis.resize (nCh * nPol) (.fin 0))) row.vis).bind fun vis =>
  rows.wr blockRow { row with vis := vis }

/-- `MetaDataFloatCount`, weightblockencoder.h:16. -/
def metaDataFloatCount : Nat := 1

/-- `SymbolCount`, weightblockencoder.h:18-20. -/
def symbolCount (nRows nCh : Nat) : Nat := nRows * nCh

/-- `WeightEncoder::Encode`, weightencoder.h:37-57; `R` rounds to `T`, `RF` to the `float` argument of
`roundf`. Returns the scale value and the destination vector. -/
def vecEncode (RF R : ℚ → Fl) (q : Nat) (dest : Buf Nat) (input : Buf Fl) : Option (Fl × Buf Nat) :=
  (input.rd 0).bind fun s0 =>
  (forRange (input.len - 1) (fun k s => (input.rd (k + 1)).map fun v => if Fl.lt s v then v else s)
    s0).bind fun scaleVal =>
  (forRange input.len (fun i (d : Buf Nat) => (input.rd i).bind fun v =>
    (toUnsigned (roundf (Fl.cast RF
      (Fl.mul R (Fl.div R (.fin ((q - 1 : Nat) : ℚ)) scaleVal) v)))).bind fun s => d.wr i s)
    dest).map fun d => (scaleVal, d)

/-- `WeightEncoder::Decode`, weightencoder.h:66-77. -/
def vecDecode (R : ℚ → Fl) (q : Nat) (dest : Buf Fl) (scaleVal : Fl) (input : Buf Nat) :
    Option (Buf Fl) :=
  forRange input.len (fun i (d : Buf Fl) => (input.rd i).bind fun s =>
    d.wr i (Fl.mul R (.fin s) (Fl.div R scaleVal (.fin ((q - 1 : Nat) : ℚ))))) dest

end Dysco.Weight
