import Verif.DictionaryModel
import Verif.FlModel

/-!
# Model of `stochasticencoder.h` and `stochasticencoder.cc`

`ValueType` is `float`. Out-of-range table accesses are undefined behaviour (`none`).
Assertions are assumed disabled (`NDEBUG`); see `Dictionary.symbol_assertion_fails_on_first`.
-/

namespace Dysco.Stochastic

open Dictionary

/-- The float comparisons used by the searches. dictionary.h:52, 60, 66, 110, 116, 121. -/
def flCmp : Cmp Fl := ⟨Fl.lt, Fl.le⟩

/-- `StochasticEncoder`, stochasticencoder.h:166-167. Both dictionaries have size
`n = quantCount - 1`; the memory of `_decDictionary` has room for `cap` values
(`_decDictionary.reserve(quantCount)`). -/
structure Encoder where
  n : Nat
  bound : Nat → Fl
  level : Nat → Fl
  cap : Nat

/-- `QuantizationCount()`, stochasticencoder.h:147. -/
def Encoder.quantCount (e : Encoder) : Nat := e.n + 1

/-- `MaxQuantity()`, stochasticencoder.h:149, dictionary.h:187 (`_values.back()`). -/
def Encoder.maxQuantity (e : Encoder) : Fl := e.level (e.n - 1)

/-- `Encode(value)`, stochasticencoder.h:81-86. -/
def Encoder.encode (e : Encoder) (value : Fl) : Option Nat :=
  if value.isFinite then
    (lowerBound flCmp ⟨e.n, e.bound⟩ value).bind (symbol false)
  else some (e.quantCount - 1)

/-- `EncodeWithDithering(value, ditherValue)`, stochasticencoder.h:103-123. `R` rounds to `float`
(or is exact). `ValueType(1u << 31)` is `2^31`; in `ditherMark > ditherValue` the unsigned number is
converted to `float`. -/
def Encoder.encodeDither (R : ℚ → Fl) (e : Encoder) (value : Fl) (dither : Nat) : Option Nat :=
  if value.isFinite then
    match lowerBound flCmp ⟨e.n, e.level⟩ value with
    | none => none
    | some lb =>
      if lb = 0 then symbol false lb
      else if lb = e.n then symbol false (lb - 1)
      else
        let right := e.level lb
        let left := e.level (lb - 1)
        let mark := Fl.div R (Fl.mul R (.fin (2 ^ 31)) (Fl.sub R value left)) (Fl.sub R right left)
        if Fl.lt (R dither) mark then symbol false lb else symbol false (lb - 1)
  else some e.n

/-- `RightBoundary(symbol)`, stochasticencoder.h:131-136. -/
def Encoder.rightBoundary (e : Encoder) (s : Nat) : Fl := if s ≠ e.n then e.bound s else .fin 0

/-- `Decode(symbol)`, stochasticencoder.h:143: reads the memory behind `_values`, also past its
size; beyond the reserved memory this is UB. -/
def Encoder.decode (e : Encoder) (s : Nat) : Option Fl := if s < e.cap then some (e.level s) else none

/-- `std::numeric_limits<float>::max()`. stochasticencoder.cc:114, 141, 169. -/
def fltMax : ℚ := (2 ^ 24 - 1) * 2 ^ 104

/-- State of the table-filling loop: the two tables and the moving iterators.
stochasticencoder.cc:81-83, 126-129, 148-151. -/
structure Fill where
  enc : Nat → Fl
  dec : Nat → Fl
  ei : Nat
  di : Nat

/-- `*encItem = x` with `_encDictionary` of size `quantCount - 1` (UB outside).
stochasticencoder.cc:88, 100, 114, 133, 141, 160, 169. -/
def Fill.putEnc (q : Nat) (x : Fl) (f : Fill) : Option Fill :=
  if f.ei < q - 1 then some { f with enc := fun j => if j = f.ei then x else f.enc j } else none

/-- `*decItem = x` with `_decDictionary` of capacity `quantCount` (UB outside).
stochasticencoder.cc:93, 106, 121, 138, 142, 166, 170. -/
def Fill.putDec (q : Nat) (x : Fl) (f : Fill) : Option Fill :=
  if f.di < q then some { f with dec := fun j => if j = f.di then x else f.dec j } else none

/-- Body of the loops at stochasticencoder.cc:85-95, 97-109, 130-140, 156-168. All four have this
shape: `F c` stands for the value computed from the fraction `c` and converted to float
(Gaussian: `stddev * invCumulative(c)`, uniform: `stddev * (-1 + 2c)`,
Student-t: `gsl_cdf_tdist_Pinv(c, nu) * rms`,
truncated Gaussian: `gsl_cdf_gaussian_Pinv(c * factor + cdfValueAtTrunc, rms)`). -/
def fillStep (q : Nat) (F : ℚ → Fl) (i : Nat) (f : Fill) : Option Fill :=
  let f1 := if i ≠ 0 then
      (f.putEnc q (F (i / ((q - 1 : Nat) : ℚ)))).map fun g => { g with ei := g.ei + 1 }
    else some f
  match f1 with
  | none => none
  | some g => (g.putDec q (F ((i + 1 / 2) / ((q - 1 : Nat) : ℚ)))).map fun h => { h with di := h.di + 1 }

/-- `for (size_t i = 0; i != quantCount - 1; ++i)`; `k` iterations remain, `i` is the counter.
stochasticencoder.cc:85-95, 97-109, 130-140, 156-168. -/
def fillLoop (q : Nat) (F : ℚ → Fl) : Nat → Nat → Fill → Option Fill
  | 0, _, f => some f
  | k + 1, i, f =>
    match fillStep q F i f with
    | none => none
    | some g => fillLoop q F k (i + 1) g

/-- The constructors, stochasticencoder.cc:68-122, 124-143, 145-171: loop, then
`*encItem = max` and `*decItem = NaN`. `e0`, `d0`: contents of the uninitialised memory. -/
def construct (q : Nat) (F : ℚ → Fl) (e0 d0 : Nat → Fl) : Option Encoder :=
  match fillLoop q F (q - 1) 0 ⟨e0, d0, 0, 0⟩ with
  | none => none
  | some f =>
    match f.putEnc q (.fin fltMax) with
    | none => none
    | some f =>
      match f.putDec q .nan with
      | none => none
      | some f => some ⟨q - 1, f.enc, f.dec, q⟩

/-- Uniform mapping, stochasticencoder.cc:97-109, in exact arithmetic; `sd` is the (already
multiplied by sqrt 3) standard deviation. -/
def uniformF (sd : ℚ) (c : ℚ) : Fl := .fin (sd * (-1 + 2 * c))

end Dysco.Stochastic
