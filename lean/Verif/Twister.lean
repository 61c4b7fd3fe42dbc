import Mathlib.Algebra.BigOperators.Fin
import Mathlib.Algebra.BigOperators.Field
import Mathlib.Data.Fintype.BigOperators
import Mathlib.Data.Fintype.Pi
import Mathlib.Data.Fintype.Prod
import Mathlib.Data.Rat.Defs
import Mathlib.Logic.Equiv.Prod
import Mathlib.Tactic.Ring
import Mathlib.Tactic.NormNum
import Mathlib.Tactic.Linarith
import Mathlib.Tactic.FieldSimp

/-!
# The generator of the dither values

The dither values come from a `std::mt19937` (dyscodatacolumn.h:78) through a `std::uniform_int_distribution` for the numbers
below `2^31` (stochasticencoder.h:88-90). The C++ standard prescribes the generator ([rand.eng.mers]), this file follows it.
-/

namespace Dysco.Twister

/-- The words of the generator. `std::mt19937`, dyscodatacolumn.h:78: 32 bits. -/
abbrev Word := BitVec 32

/-- The state of the generator, the oldest word first. `std::mt19937`, dyscodatacolumn.h:78: 624 words. -/
abbrev Gen := Fin 624 → Word

/-- The upper bit of one word and the lower bits of the next are multiplied by the matrix of the generator.
`std::mt19937`, dyscodatacolumn.h:78. -/
def twist (u l : Word) : Word :=
  let y := (u &&& 0x80000000#32) ||| (l &&& 0x7fffffff#32)
  (y >>> 1) ^^^ (if y.getLsbD 0 then 0x9908b0df#32 else 0#32)

/-- The next word. `std::mt19937`, dyscodatacolumn.h:78. -/
def next (s : Gen) : Word := s 397 ^^^ twist (s 0) (s 1)

/-- The state after one call: the oldest word is dropped. `std::mt19937`, dyscodatacolumn.h:78. -/
def step (s : Gen) : Gen := fun i => if h : i.val + 1 < 624 then s ⟨i.val + 1, h⟩ else next s

/-- The output for a word. `std::mt19937`, dyscodatacolumn.h:78. -/
def temper (x : Word) : Word :=
  let x := x ^^^ ((x >>> 11) &&& 0xffffffff#32)
  let x := x ^^^ ((x <<< 7) &&& 0x9d2c5680#32)
  let x := x ^^^ ((x <<< 15) &&& 0xefc60000#32)
  x ^^^ ((x >>> 18) &&& 0xffffffff#32)

/-- Output `k`, from 0. `operator()` of `std::mt19937`, dyscodatacolumn.h:78. -/
def output (s : Gen) (k : Nat) : Word := temper (next (step^[k] s))

/-- The words that a seed gives. `seed` of `std::mt19937`, dyscodatacolumn.cc:82-83. -/
def seedWord (seed : Word) : Nat → Word
  | 0 => seed
  | i + 1 => 1812433253#32 * (seedWord seed i ^^^ (seedWord seed i >>> 30)) + BitVec.ofNat 32 (i + 1)

/-- The state that a seed gives. `seed` of `std::mt19937`, dyscodatacolumn.cc:82-83. -/
def seeded (seed : Word) : Gen := fun i => seedWord seed i

/-- The generator of a new thread, dyscodatacolumn.cc:80-87: a default-constructed generator, which has the seed 5489, that is
given a seed by the generator of the column unless the column has a static seed. -/
def threadGen (randomize : Bool) (column : Gen) : Gen × Gen :=
  if randomize then (seeded (output column 0), step column) else (seeded 5489#32, column)

/-- The dither value for a word. `uniform_int_distribution`, stochasticencoder.h:88-90, as in libstdc++ since GCC 11 (the upper
half of the product with `2^31`; nothing is rejected as `2^31` divides `2^32`). The standard leaves the algorithm open. -/
def ditherHigh (w : Word) : Nat := w.toNat * 2 ^ 31 / 2 ^ 32

/-- The same as in libc++: the lower 31 bits. stochasticencoder.h:88-90. -/
def ditherLow (w : Word) : Nat := w.toNat % 2 ^ 31

/-- The first outputs with the default seed. -/
example : output (seeded 5489#32) 0 = 3499211612#32 ∧ output (seeded 5489#32) 1 = 581869302#32 ∧
    output (seeded 5489#32) 2 = 3890346734#32 := by decide +kernel

end Dysco.Twister
